import Verif.Model.Greedy
import Verif.Spec.Greedy
import Verif.Proof.SuperDag
import Mathlib.Data.List.GetD

/-! # Lemmas about `GreedyGrouping` -/

namespace Verif.Greedy
open Res Csc Super

variable {g : Csc} {S : Int}

/-! ### The candidates -/

theorem strip_eq {head : Nat} {l : List Nat} (h : l.Pairwise (· ≥ ·)) :
    strip head l = l.filter (fun c => decide (head < c)) := by
  unfold strip
  induction l using List.reverseRecOn with
  | nil => simp
  | append_singleton l a ih =>
    rw [List.pairwise_append] at h
    obtain ⟨h1, _, h3⟩ := h
    rw [List.rdropWhile_concat, List.filter_append]
    by_cases ha : a ≤ head
    · rw [if_pos (by simpa using ha), ih h1]
      simp [ha]
    · rw [if_neg (by simpa using ha)]
      have e : l.filter (fun c => decide (head < c)) = l := by
        rw [List.filter_eq_self]
        intro c hc
        have := h3 c hc a (by simp)
        simp only [decide_eq_true_eq]
        omega
      rw [e]
      simp [Nat.lt_of_not_le ha]

theorem sortDesc_spec {l : List Nat} (h : l.Nodup) :
    (sortDesc l).Pairwise (· > ·) ∧ ∀ a, a ∈ sortDesc l ↔ a ∈ l := by
  unfold sortDesc
  have hp := List.perm_insertionSort (r := (· ≥ ·)) (l := l)
  have hs := List.pairwise_insertionSort (r := (· ≥ ·)) l
  refine ⟨?_, fun a => hp.mem_iff⟩
  have hn : (l.insertionSort (· ≥ ·)).Nodup := hp.nodup_iff.2 h
  exact List.Pairwise.imp₂ (fun a b h1 h2 => by omega) hs hn

/-- A list of candidates: descending, in the pool and above the head. -/
structure Cands (head : Nat) (pool cur : List Nat) : Prop where
  desc : cur.Pairwise (· > ·)
  sub : ∀ c ∈ cur, c ∈ pool
  above : ∀ c ∈ cur, head < c

theorem Cands.last {head : Nat} {pool cur : List Nat} (h : Cands head pool cur) :
    (cur.getLast? = some (head + 1) ↔ head + 1 ∈ cur) ∧
    (cur.getLast? = some (head + 1) → Cands (head + 1) pool cur.dropLast) := by
  rcases List.eq_nil_or_concat cur with rfl | ⟨l, a, rfl⟩
  · simp
  · rw [List.concat_eq_append] at h ⊢
    have hd := h.desc
    rw [List.pairwise_append] at hd
    obtain ⟨h1, _, h3⟩ := hd
    have ha := h.above a (by simp)
    simp only [List.getLast?_append, List.getLast?_singleton, Option.some_or, Option.some.injEq,
      List.mem_append, List.mem_singleton, List.dropLast_concat]
    constructor
    · constructor
      · rintro rfl; simp
      · rintro (hm | hm)
        · have := h3 _ hm a (by simp)
          omega
        · exact hm.symm
    · rintro rfl
      exact ⟨h1, fun c hc => h.sub c (by simp [hc]), fun c hc => h3 c hc _ (by simp)⟩

theorem foldl_ins {cur pool : List Nat} (hn : pool.Nodup) :
    (cur.foldl (fun pool c => insertSet c pool) pool).Nodup ∧
    ∀ a, a ∈ cur.foldl (fun pool c => insertSet c pool) pool ↔ a ∈ cur ∨ a ∈ pool := by
  induction cur generalizing pool with
  | nil => simp [hn]
  | cons c cur ih =>
    rw [List.foldl_cons]
    obtain ⟨h1, h2⟩ := ih (pool := insertSet c pool) (nodup_insertSet hn)
    refine ⟨h1, fun a => ?_⟩
    rw [h2, mem_insertSet, List.mem_cons]
    tauto

/-- What `getBestCandidate` returns. -/
def BestOk (head : Nat) (pool : List Nat) (r : Option Nat × List Nat × List Nat) : Prop :=
  (r.1 = some (head + 1) ↔ head + 1 ∈ pool) ∧ r.2.1.Nodup ∧ (∀ a, a ∈ r.2.1 ↔ a ∈ pool) ∧
  (r.1 = some (head + 1) → Cands (head + 1) r.2.1 r.2.2)

theorem pop_spec {head : Nat} {pool : List Nat} (hn : pool.Nodup) :
    BestOk head pool (pop pool (strip head (sortDesc pool))) := by
  obtain ⟨h1, h2⟩ := sortDesc_spec hn
  have e := strip_eq (head := head) (h1.imp (fun h => Nat.le_of_lt h))
  have hc : Cands head pool (strip head (sortDesc pool)) := by
    rw [e]
    refine ⟨h1.filter _, fun c hc => ?_, fun c hc => ?_⟩
    · exact (h2 c).1 (List.mem_of_mem_filter hc)
    · simpa using (List.mem_filter.1 hc).2
  have hm : head + 1 ∈ strip head (sortDesc pool) ↔ head + 1 ∈ pool := by
    rw [e, List.mem_filter, h2]
    simp
  obtain ⟨l1, l2⟩ := hc.last
  unfold pop
  cases hl : (strip head (sortDesc pool)).getLast? with
  | none =>
    rw [hl] at l1
    refine ⟨?_, hn, fun _ => Iff.rfl, by simp⟩
    rw [← hm, ← l1]
  | some c =>
    rw [hl] at l1 l2
    refine ⟨?_, hn, fun _ => Iff.rfl, l2⟩
    rw [← hm, ← l1]

theorem best_spec {head : Nat} {pool cur : List Nat} (hn : pool.Nodup) (hc : Cands head pool cur) :
    BestOk head pool (best head pool cur) := by
  unfold best
  by_cases h0 : cur = []
  · rw [if_neg (by simpa using h0)]
    by_cases h1 : pool = []
    · rw [if_neg (by simpa using h1)]
      subst h1 h0
      exact ⟨by simp, by simp, by simp, by simp⟩
    · rw [if_pos h1]
      exact pop_spec hn
  · rw [if_pos h0]
    dsimp only
    have e : strip head cur = cur := by
      rw [strip_eq (hc.desc.imp (fun h => Nat.le_of_lt h)), List.filter_eq_self]
      intro c h
      simpa using hc.above c h
    rw [e]
    obtain ⟨l1, l2⟩ := hc.last
    cases hl : cur.getLast? with
    | none => exact absurd (List.getLast?_eq_none_iff.1 hl) h0
    | some c =>
      rw [hl] at l1 l2
      dsimp only
      by_cases h1 : c = head + 1
      · rw [if_pos h1]
        subst h1
        refine ⟨?_, hn, fun _ => Iff.rfl, l2⟩
        simp only [true_iff]
        exact hc.sub _ (l1.1 rfl)
      · rw [if_neg h1]
        obtain ⟨f1, f2⟩ := foldl_ins (cur := cur) hn
        have f3 : ∀ a, a ∈ cur.foldl (fun pool c => insertSet c pool) pool ↔ a ∈ pool := by
          intro a
          rw [f2]
          exact ⟨fun h => h.elim (hc.sub a) id, .inr⟩
        obtain ⟨b1, b2, b3, b4⟩ := pop_spec (head := head) f1
        exact ⟨by rw [b1, f3], b2, fun a => by rw [b3, f3], b4⟩

theorem addChildes_spec (hwf : g.WF) {node : Nat} (hv : node < g.n) {pool : List Nat} (hn : pool.Nodup) :
    wp (addChildes S g.p g.i node pool) (fun pool' => pool'.Nodup ∧ ∀ r, r ∈ pool' ↔
      r ∈ pool ∨ (r ∈ g.col node ∧ node < r ∧ (r : Int) ≤ S + node)) := by
  unfold addChildes
  have hb := hwf.bound
  have hle := hwf.ptr_le (a := node + 1) (by omega)
  rw [hwf.rd_p (by omega), ok_bind, hwf.rd_p (by omega), ok_bind]
  refine forRange_wp' (fun k (pool' : List Nat) => pool'.Nodup ∧ ∀ r, r ∈ pool' ↔ r ∈ pool ∨
    ∃ j, g.ptr node ≤ j ∧ j < k ∧ g.idx j = r ∧ node < r ∧ (r : Int) ≤ S + node) (hwf.mono _ hv) ?_ ?_ ?_
  · refine ⟨hn, fun r => ⟨.inl, ?_⟩⟩
    rintro (h | ⟨j, h1, h2, _⟩)
    · exact h
    · omega
  · rintro k pool' hk1 hk2 ⟨a1, a2⟩
    rw [rd_getD 0 (by omega), ok_bind]
    have hsplit : ∀ r, (∃ j, g.ptr node ≤ j ∧ j < k + 1 ∧ g.idx j = r ∧ node < r ∧ (r : Int) ≤ S + node) ↔
        (∃ j, g.ptr node ≤ j ∧ j < k ∧ g.idx j = r ∧ node < r ∧ (r : Int) ≤ S + node) ∨
        (r = g.idx k ∧ node < r ∧ (r : Int) ≤ S + node) := by
      intro r
      constructor
      · rintro ⟨j, b1, b2, b3, b4⟩
        by_cases h : j = k
        · subst h; exact .inr ⟨b3.symm, b4⟩
        · exact .inl ⟨j, b1, by omega, b3, b4⟩
      · rintro (⟨j, b1, b2, b3⟩ | ⟨b1, b2⟩)
        · exact ⟨j, b1, by omega, b3⟩
        · exact ⟨k, hk1, by omega, b1.symm, b2⟩
    change wp (if node < g.idx k ∧ ((g.idx k : Nat) : Int) ≤ S + node then ok (insertSet (g.idx k) pool')
      else ok pool') _
    by_cases h : node < g.idx k ∧ ((g.idx k : Nat) : Int) ≤ S + node
    · rw [if_pos h, wp_ok]
      refine ⟨nodup_insertSet a1, fun r => ?_⟩
      rw [mem_insertSet, a2, hsplit]
      constructor
      · rintro (rfl | h' | h')
        · exact .inr (.inr ⟨rfl, h⟩)
        · exact .inl h'
        · exact .inr (.inl h')
      · rintro (h' | h' | h')
        · exact .inr (.inl h')
        · exact .inr (.inr h')
        · exact .inl h'.1
    · rw [if_neg h, wp_ok]
      refine ⟨a1, fun r => ?_⟩
      rw [a2, hsplit]
      constructor
      · rintro (h' | h')
        · exact .inl h'
        · exact .inr (.inl h')
      · rintro (h' | h' | ⟨rfl, h'⟩)
        · exact .inl h'
        · exact .inr h'
        · exact absurd h' h
  · rintro pool' ⟨a1, a2⟩
    refine ⟨a1, fun r => ?_⟩
    rw [a2, hwf.mem_col hv]
    constructor
    · rintro (h | ⟨j, h1, h2, h3, h4⟩)
      · exact .inl h
      · exact .inr ⟨⟨j, h1, h2, h3⟩, h4⟩
    · rintro (h | ⟨⟨j, h1, h2, h3⟩, h4⟩)
      · exact .inl h
      · exact .inr ⟨j, h1, h2, h3, h4⟩

/-! ### The main loop -/

/-- Invariant of the main loop. -/
structure Inv (g : Csc) (S : Int) (s : St) : Prop where
  le : s.head ≤ g.n
  pos : 0 < s.set.length
  idx : s.idx + 1 = s.set.length
  first : s.set.getD 0 0 = 0
  strict : s.set.Pairwise (· < ·)
  last : ∀ b ∈ s.set, b ≤ s.head
  /-- the columns before the head belong to closed groups or to the current one -/
  full : s.head = g.n → 0 < g.n → s.set.getD s.idx 0 = g.n
  join : ∀ v, v < s.head → v + 1 < g.n →
    (v + 1 ∈ s.set ↔ ¬ ∃ u, Together s.set u v ∧ v + 1 ∈ g.col u ∧ ((v + 1 : Nat) : Int) ≤ u + S)
  len : s.ngi.length = g.n
  inv : ∀ j v, j < s.set.length → s.set.getD j 0 ≤ v → v < s.head →
    (j + 1 < s.set.length → v < s.set.getD (j + 1) 0) → s.ngi.getD v 0 = j
  nodup : s.pool.Nodup
  pool : ∀ r, r ∈ s.pool ↔ ∃ u, s.set.getD s.idx 0 ≤ u ∧ u < s.head ∧ r ∈ g.col u ∧ u < r ∧ (r : Int) ≤ S + u
  cands : Cands s.head s.pool s.cur

theorem Inv.bounded {s : St} (h : Inv g S s) {b : Nat} (hb : b ∈ s.set) : b ≤ s.set.getD s.idx 0 := by
  obtain ⟨k, hk, rfl⟩ := List.mem_iff_getElem.1 hb
  have hi := h.idx
  rw [List.getD_eq_getElem _ _ (by omega)]
  by_cases e : k = s.idx
  · subst e; exact le_refl _
  · exact Nat.le_of_lt (List.pairwise_iff_getElem.1 h.strict k s.idx _ _ (by omega))

theorem Inv.together {s : St} (h : Inv g S s) {u : Nat} : Together s.set u s.head ↔
    s.set.getD s.idx 0 ≤ u ∧ u ≤ s.head := by
  have hi := h.idx
  have hm : s.set.getD s.idx 0 ∈ s.set := by
    rw [List.getD_eq_getElem _ _ (by omega)]
    exact List.getElem_mem _
  have hl := h.last _ hm
  constructor
  · rintro ⟨h1, h2⟩
    have := h2 _ hm
    exact ⟨by omega, h1⟩
  · rintro ⟨h1, h2⟩
    refine ⟨h2, fun b hb hc => ?_⟩
    have := h.bounded hb
    omega

theorem init_inv : Inv g S ⟨0, 0, [0], List.replicate g.n 0, [], []⟩ := by
  refine ⟨by simp, by simp, rfl, rfl, by simp, by simp, ?_, by simp, by simp, ?_, by simp, ?_, ⟨by simp, by simp, by simp⟩⟩
  · dsimp only
    omega
  · intro j v _ _ h
    simp at h
  · intro r
    simp

theorem step_inv (hwf : g.WF) {s : St} (h : Inv g S s) (hlt : s.head < g.n) :
    wp (step S g.p g.i s) (fun s' => Inv g S s' ∧ s'.head = s.head + 1) := by
  unfold step
  rw [wp_bind]
  refine wp_mono (addChildes_spec hwf hlt h.nodup) ?_
  rintro pool ⟨hn, hp⟩
  have hlen := h.len
  have hidx := h.idx
  have hpos := h.pos
  rw [wr_eq (by omega), ok_bind]
  have hmb : s.set.getD s.idx 0 ∈ s.set := by
    rw [List.getD_eq_getElem _ _ (by omega)]
    exact List.getElem_mem _
  have hbh := h.last _ hmb
  have hpool : ∀ r, r ∈ pool ↔ ∃ u, s.set.getD s.idx 0 ≤ u ∧ u < s.head + 1 ∧ r ∈ g.col u ∧ u < r ∧
      (r : Int) ≤ S + u := by
    intro r
    rw [hp, h.pool]
    constructor
    · rintro (⟨u, a1, a2, a3⟩ | a)
      · exact ⟨u, a1, by omega, a3⟩
      · exact ⟨s.head, hbh, by omega, a⟩
    · rintro ⟨u, a1, a2, a3⟩
      by_cases e : u = s.head
      · subst e; exact .inr a3
      · exact .inl ⟨u, a1, by omega, a3⟩
  have hc : Cands s.head pool s.cur :=
    ⟨h.cands.desc, fun c hc => (hp c).2 (.inl (h.cands.sub c hc)), h.cands.above⟩
  have hb := best_spec hn hc
  obtain ⟨c, pool', cur', hbe⟩ : ∃ c pool' cur', best s.head pool s.cur = (c, pool', cur') := ⟨_, _, _, rfl⟩
  rw [hbe] at hb ⊢
  obtain ⟨b1, b2, b3, b4⟩ := hb
  dsimp only at b1 b2 b3 b4 ⊢
  have hngi : ∀ j v, j < s.set.length → s.set.getD j 0 ≤ v → v < s.head + 1 →
      (j + 1 < s.set.length → v < s.set.getD (j + 1) 0) → (s.ngi.set s.head s.idx).getD v 0 = j := by
    intro j v hj h1 h2 h3
    rw [getD_set]
    by_cases e : s.head = v
    · rw [if_pos ⟨e, by omega⟩]
      by_contra hne
      have h4 := h3 (by omega)
      have hm : s.set.getD (j + 1) 0 ∈ s.set := by
        rw [List.getD_eq_getElem _ _ (by omega)]
        exact List.getElem_mem _
      have := h.last _ hm
      omega
    · rw [if_neg (fun hh => e hh.1)]
      exact h.inv j v hj h1 (by omega) h3
  have hmem : (s.head + 1 ∈ pool ↔ ∃ u, Together s.set u s.head ∧ s.head + 1 ∈ g.col u ∧
      ((s.head + 1 : Nat) : Int) ≤ u + S) := by
    rw [hpool]
    constructor
    · rintro ⟨u, a1, a2, a3, a4, a5⟩
      exact ⟨u, h.together.2 ⟨a1, by omega⟩, a3, by omega⟩
    · rintro ⟨u, a1, a2, a3⟩
      obtain ⟨c1, c2⟩ := h.together.1 a1
      exact ⟨u, c1, by omega, a2, by omega, by omega⟩
  by_cases e : c = some (s.head + 1)
  · rw [if_pos e, wp_ok]
    have hin := b1.1 e
    have hrange : s.head + 1 < g.n := by
      obtain ⟨u, _, a2, a3, _⟩ := (hpool _).1 hin
      exact hwf.range u (by omega) _ a3
    refine ⟨⟨hlt, hpos, hidx, h.first, h.strict, fun b hb => Nat.le_succ_of_le (h.last b hb), ?_, ?_,
      by simpa using hlen, hngi, b2, fun r => by rw [b3, hpool], b4 e⟩, rfl⟩
    · dsimp only
      omega
    · intro v hv hv2
      dsimp only at hv ⊢
      by_cases e2 : v = s.head
      · subst e2
        have hnot : s.head + 1 ∉ s.set := by
          intro hm
          have := h.last _ hm
          omega
        simp only [hnot, false_iff, not_not]
        exact hmem.1 hin
      · exact h.join v (by omega) hv2
  · rw [if_neg e, wp_ok]
    have hnin : s.head + 1 ∉ pool := fun hh => e (b1.2 hh)
    have hg1 : ∀ k, k < s.set.length → (s.set ++ [s.head + 1]).getD k 0 = s.set.getD k 0 := by
      intro k hk
      rw [List.getD_eq_getElem?_getD, List.getElem?_append_left hk, ← List.getD_eq_getElem?_getD]
    have hg2 : (s.set ++ [s.head + 1]).getD s.set.length 0 = s.head + 1 := by
      rw [List.getD_eq_getElem?_getD, List.getElem?_append_right (le_refl _)]
      simp
    have htog : ∀ u v, v ≤ s.head → (Together (s.set ++ [s.head + 1]) u v ↔ Together s.set u v) := by
      intro u v hv
      unfold Together
      constructor
      · rintro ⟨a1, a2⟩
        exact ⟨a1, fun b hb => a2 b (by simp [hb])⟩
      · rintro ⟨a1, a2⟩
        refine ⟨a1, fun b hb => ?_⟩
        rw [List.mem_append, List.mem_singleton] at hb
        rcases hb with hb | hb
        · exact a2 b hb
        · omega
    refine ⟨⟨hlt, by simp, by simp [hidx], by dsimp only; rw [hg1 0 hpos]; exact h.first, ?_, ?_, ?_, ?_,
      by simpa using hlen, ?_, by simp, ?_, ⟨by simp, by simp, by simp⟩⟩, rfl⟩
    · dsimp only
      rw [List.pairwise_append]
      refine ⟨h.strict, by simp, fun a ha b hb => ?_⟩
      rw [List.mem_singleton] at hb
      have := h.last a ha
      omega
    · intro b hb
      dsimp only at hb ⊢
      rw [List.mem_append, List.mem_singleton] at hb
      rcases hb with hb | hb
      · exact Nat.le_succ_of_le (h.last b hb)
      · omega
    · intro h1 h2
      dsimp only at h1 ⊢
      rw [hidx, hg2, h1]
    · intro v hv hv2
      dsimp only at hv ⊢
      have hx : (∃ u, Together (s.set ++ [s.head + 1]) u v ∧ v + 1 ∈ g.col u ∧ ((v + 1 : Nat) : Int) ≤ u + S) ↔
          ∃ u, Together s.set u v ∧ v + 1 ∈ g.col u ∧ ((v + 1 : Nat) : Int) ≤ u + S := by
        constructor
        · rintro ⟨u, a, b⟩; exact ⟨u, (htog u v (by omega)).1 a, b⟩
        · rintro ⟨u, a, b⟩; exact ⟨u, (htog u v (by omega)).2 a, b⟩
      rw [hx]
      by_cases e2 : v = s.head
      · subst e2
        simp only [List.mem_append, List.mem_singleton, or_true, true_iff]
        exact fun hh => hnin (hmem.2 hh)
      · rw [← h.join v (by omega) hv2, List.mem_append, List.mem_singleton]
        constructor
        · rintro (a | a)
          · exact a
          · omega
        · exact .inl
    · intro j v hj h1 h2 h3
      dsimp only at hj h1 h2 h3 ⊢
      rw [List.length_append, List.length_singleton] at hj h3
      by_cases e2 : j = s.set.length
      · subst e2
        rw [hg2] at h1
        omega
      · rw [hg1 j (by omega)] at h1
        refine hngi j v (by omega) h1 h2 (fun hh => ?_)
        have := h3 (by omega)
        rwa [hg1 _ hh] at this
    · intro r
      dsimp only
      rw [hidx, hg2]
      simp only [List.not_mem_nil, false_iff]
      rintro ⟨u, a1, a2, _⟩
      omega

theorem groups_spec (hwf : g.WF) :
    wp (groups g.n S g.p g.i) (fun r => IsGreedy g S r.1 ∧ r.2.length = g.n ∧
      ∀ j v, j + 1 < r.1.length → r.1.getD j 0 ≤ v → v < r.1.getD (j + 1) 0 → r.2.getD v 0 = j) := by
  unfold groups
  rw [wp_bind]
  refine wp_mono (whileF_wp (Inv g S) (fun s => g.n - s.head) (Q := fun s => Inv g S s ∧ s.head = g.n) ?_ g.n _
    (by simp) init_inv) ?_
  · intro s hs
    rw [wp_ok]
    by_cases h : s.head < g.n
    · rw [if_pos (by simpa using h)]
      refine ⟨by omega, wp_mono (step_inv hwf hs h) ?_⟩
      rintro s' ⟨a1, a2⟩
      exact ⟨a1, by omega⟩
    · rw [if_neg (by simpa using h)]
      have := hs.le
      exact ⟨hs, by omega⟩
  · rintro s ⟨h, he⟩
    rw [wp_ok]
    dsimp only
    have hi := h.idx
    have hp := h.pos
    have hlast : s.set.getD s.idx 0 = g.n := by
      by_cases h0 : 0 < g.n
      · exact h.full he h0
      · have hm : s.set.getD s.idx 0 ∈ s.set := by
          rw [List.getD_eq_getElem _ _ (by omega)]
          exact List.getElem_mem _
        have := h.last _ hm
        omega
    have hst : ∀ a b, a < b → b < s.set.length → s.set.getD a 0 < s.set.getD b 0 := by
      intro a b hab hb
      rw [List.getD_eq_getElem _ _ (by omega), List.getD_eq_getElem _ _ hb]
      exact List.pairwise_iff_getElem.1 h.strict a b _ _ hab
    refine ⟨⟨?_, h.strict, fun v hv => h.join v (by omega) hv⟩, h.len, fun j v hj h1 h2 => ?_⟩
    · refine PtrOk.mk' (by omega) h.first (by rw [← hi]; simpa using hlast) ?_
      intro b hb
      exact Nat.le_of_lt (hst b (b + 1) (by omega) (by omega))
    · have h3 : s.set.getD (j + 1) 0 ≤ g.n := by
        rw [← he]
        refine h.last _ ?_
        rw [List.getD_eq_getElem _ _ (by omega)]
        exact List.getElem_mem _
      exact h.inv j v (by omega) h1 (by omega) (fun _ => h2)

/-! ### The graph of the groups -/

/-- The groups listed for group `j`. -/
def Kid (g : Csc) (set : List Nat) (j t : Nat) : Prop :=
  t = j ∨ j < t ∧ ∃ c r, (rangeGrouping g.n set).Mem c j ∧ (rangeGrouping g.n set).Mem r t ∧ r ∈ g.col c

theorem childSet_any {ix inv : List Nat} {lo hi e : Nat} (hle : lo ≤ hi) (hix : hi ≤ ix.length)
    (hinv : ∀ k, lo ≤ k → k < hi → ix.getD k 0 < inv.length) :
    wp (childSet ix inv lo hi e) (fun buf => buf.Nodup ∧
      ∀ t, t ∈ buf ↔ ∃ k, lo ≤ k ∧ k < hi ∧ e ≤ ix.getD k 0 ∧ inv.getD (ix.getD k 0) 0 = t) := by
  unfold childSet
  refine forRange_wp' (fun i (buf : List Nat) => buf.Nodup ∧
    ∀ t, t ∈ buf ↔ ∃ k, lo ≤ k ∧ k < i ∧ e ≤ ix.getD k 0 ∧ inv.getD (ix.getD k 0) 0 = t) hle ?_ ?_ (fun _ h => h)
  · refine ⟨List.nodup_nil, fun t => ?_⟩
    simp only [List.not_mem_nil, false_iff]
    rintro ⟨k, h1, h2, _⟩; omega
  · rintro i buf h1 h2 ⟨a1, a3⟩
    rw [rd_getD 0 (show i < ix.length by omega)]
    simp only [ok_bind]
    split
    · next hc =>
      rw [rd_getD 0 (hinv i h1 h2)]
      simp only [ok_bind, wp_ok]
      refine ⟨nodup_insertSet a1, fun t => ?_⟩
      rw [mem_insertSet, a3]
      constructor
      · rintro (rfl | ⟨k, b1, b2, b3⟩)
        · exact ⟨i, h1, by omega, hc, rfl⟩
        · exact ⟨k, b1, by omega, b3⟩
      · rintro ⟨k, b1, b2, b3, b4⟩
        by_cases hki : k = i
        · subst hki; exact .inl b4.symm
        · exact .inr ⟨k, b1, by omega, b3, b4⟩
    · next hc =>
      rw [wp_ok]
      refine ⟨a1, fun t => ?_⟩
      rw [a3]
      constructor
      · rintro ⟨k, b1, b2, b3⟩; exact ⟨k, b1, by omega, b3⟩
      · rintro ⟨k, b1, b2, b3, b4⟩
        have hki : k ≠ i := by rintro rfl; exact hc b3
        exact ⟨k, b1, by omega, b3, b4⟩

/-- Boundaries of groups and the array of the groups of the nodes. -/
structure Groups (n : Nat) (set ngi : List Nat) : Prop where
  ptr : PtrOk set (set.length - 1) n
  strict : set.Pairwise (· < ·)
  len : ngi.length = n
  inv : ∀ j v, j + 1 < set.length → set.getD j 0 ≤ v → v < set.getD (j + 1) 0 → ngi.getD v 0 = j

theorem col_of_pos (hwf : g.WF) {k : Nat} (hk : k < g.ptr g.n) :
    ∃ c, c < g.n ∧ g.ptr c ≤ k ∧ k < g.ptr (c + 1) := by
  have hpp : PtrOk g.p g.n (g.ptr g.n) := PtrOk.mk' (by rw [hwf.plen]; omega) hwf.p0 rfl hwf.mono
  obtain ⟨u, hu⟩ := hpp.exists_block (k := k) hk
  exact ⟨u, hu.1, hu.2.1, hu.2.2⟩

theorem children_spec (hwf : g.WF) {set ngi : List Nat} (h : Groups g.n set ngi) {j : Nat} (hj : j + 1 < set.length) :
    wp (children g.p g.i set ngi j) (fun l => l.Pairwise (· < ·) ∧ ∀ t, t ∈ l ↔ Kid g set j t) := by
  have hle' := h.ptr.dle (b := j + 1) (by omega)
  have hm := h.ptr.dmono (b := j) (by omega)
  have hmn := hwf.mono_le hle' (le_refl g.n)
  have hmm := hwf.mono_le hm hle'
  unfold children
  rw [rd_getD 0 (by omega), ok_bind, rd_getD 0 hj, ok_bind, hwf.rd_p (by omega), ok_bind, hwf.rd_p (by omega),
    ok_bind, wp_bind]
  refine wp_mono (childSet_any hmm (hwf.ptr_le hle') ?_) ?_
  · intro k _ hk
    obtain ⟨c, c1, c2, c3⟩ := col_of_pos hwf (k := k) (by omega)
    rw [h.len]
    exact hwf.idx_lt c1 c2 c3
  · rintro buf ⟨b1, b2⟩
    rw [wp_ok]
    have hb : ∀ t, t ∈ buf ↔ j < t ∧
        ∃ c r, (rangeGrouping g.n set).Mem c j ∧ (rangeGrouping g.n set).Mem r t ∧ r ∈ g.col c := by
      intro t
      rw [b2]
      constructor
      · rintro ⟨k, k1, k2, k3, k4⟩
        obtain ⟨c, c1, c2, c3⟩ := col_of_pos hwf (k := k) (by omega)
        have hr := hwf.idx_lt c1 c2 c3
        obtain ⟨t', t1, t2, t3⟩ := h.ptr.exists_block (k := g.idx k) hr
        have hinv : ngi.getD (g.idx k) 0 = t' := h.inv t' (g.idx k) (by omega) t2 t3
        have ht : t' = t := hinv.symm.trans k4
        subst ht
        have hcol : (rangeGrouping g.n set).Mem c j := by
          rw [rangeGrouping_mem h.ptr]
          refine ⟨by omega, ?_, ?_⟩
          · by_contra hh
            have := hwf.mono_le (show c + 1 ≤ set.getD j 0 by omega) (by omega)
            omega
          · by_contra hh
            have := hwf.mono_le (show set.getD (j + 1) 0 ≤ c by omega) (by omega)
            omega
        refine ⟨?_, c, g.idx k, hcol, (rangeGrouping_mem h.ptr).2 ⟨t1, t2, t3⟩, (hwf.mem_col c1).2 ⟨k, c2, c3, rfl⟩⟩
        by_contra hh
        have := h.ptr.dmono_le (a := t' + 1) (b := j + 1) (by omega) (by omega)
        change set.getD (j + 1) 0 ≤ g.idx k at k3
        omega
      · rintro ⟨hjt, c, r, hc, hr, hrc⟩
        rw [rangeGrouping_mem h.ptr] at hc hr
        have hcn : c < g.n := by omega
        obtain ⟨k, k1, k2, k3⟩ := (hwf.mem_col hcn).1 hrc
        have m1 := hwf.mono_le (show set.getD j 0 ≤ c by omega) (by omega)
        have m2 := hwf.mono_le (show c + 1 ≤ set.getD (j + 1) 0 by omega) hle'
        have m3 := h.ptr.dmono_le (a := j + 1) (b := t) (by omega) (by omega)
        refine ⟨k, by omega, by omega, ?_, ?_⟩
        · show _ ≤ g.idx k
          omega
        · show ngi.getD (g.idx k) 0 = t
          rw [k3]
          exact h.inv t r (by omega) hr.2.1 hr.2.2
    have hnd : (buf ++ [j]).Nodup := by
      refine List.Nodup.append b1 (List.nodup_singleton j) ?_
      intro x hx hxj
      rw [List.mem_singleton] at hxj
      have := ((hb x).1 hx).1
      omega
    have hp := List.perm_insertionSort (r := (· ≤ ·)) (l := buf ++ [j])
    refine ⟨?_, fun t => ?_⟩
    · have hn : ((buf ++ [j]).insertionSort (· ≤ ·)).Nodup := hp.nodup_iff.2 hnd
      exact List.Pairwise.imp₂ (fun a b h1 h2 => by omega) (List.pairwise_insertionSort (r := (· ≤ ·)) _) hn
    · rw [hp.mem_iff, List.mem_append, List.mem_singleton, hb]
      exact or_comm

theorem finalize_spec (hwf : g.WF) {set ngi : List Nat} (h : Groups g.n set ngi) :
    wp (finalize g.p g.i set ngi) (fun r => r.1.length = set.length - 1 ∧
      r.2 = (r.1.map List.length).sum ∧
      ∀ j, j < set.length - 1 → (r.1.getD j []).Pairwise (· < ·) ∧ ∀ t, t ∈ r.1.getD j [] ↔ Kid g set j t) := by
  unfold finalize
  refine forRange_wp' (fun i (r : List (List Nat) × Nat) => r.1.length = i ∧ r.2 = (r.1.map List.length).sum ∧
      ∀ j, j < i → (r.1.getD j []).Pairwise (· < ·) ∧ ∀ t, t ∈ r.1.getD j [] ↔ Kid g set j t)
    (Nat.zero_le _) ⟨rfl, rfl, by omega⟩ ?_ (fun _ h => h)
  rintro i ⟨l, m⟩ _ hi ⟨h1, h2, h3⟩
  dsimp only at h1 h2 h3 ⊢
  rw [wp_bind]
  refine wp_mono (children_spec hwf h (j := i) (by omega)) ?_
  rintro c ⟨c1, c2⟩
  rw [wp_ok]
  dsimp only
  refine ⟨by simp [h1], by simp [h2], fun j hj => ?_⟩
  by_cases e : j = i
  · subst e
    rw [List.getD_eq_getElem?_getD, List.getElem?_append_right (by omega), h1]
    simpa using ⟨c1, c2⟩
  · rw [List.getD_eq_getElem?_getD, List.getElem?_append_left (by omega), ← List.getD_eq_getElem?_getD]
    exact h3 j (by omega)

theorem sum_take_succ (kids : List (List Nat)) (j : Nat) (hj : j < kids.length) :
    ((kids.take (j + 1)).map List.length).sum = ((kids.take j).map List.length).sum + (kids.getD j []).length := by
  rw [List.take_add_one, List.getElem?_eq_getElem hj, List.getD_eq_getElem _ _ hj, List.map_append, List.sum_append]
  rfl

theorem sum_take_le (kids : List (List Nat)) (j : Nat) :
    ((kids.take j).map List.length).sum ≤ (kids.map List.length).sum := by
  conv => rhs; rw [← List.take_append_drop j kids, List.map_append, List.sum_append]
  omega

theorem groupedCsc_spec {kids : List (List Nat)} {gp gi : List Nat} (hp : gp.length = kids.length + 1)
    (hi : gi.length = (kids.map List.length).sum) (hr : ∀ l ∈ kids, ∀ t ∈ l, t < kids.length) :
    wp (groupedCsc kids gp gi) (fun r => Csc.WF ⟨kids.length, r.1, r.2⟩ ∧
      Csc.ptr ⟨kids.length, r.1, r.2⟩ kids.length = (kids.map List.length).sum ∧
      ∀ j, j < kids.length → Csc.col ⟨kids.length, r.1, r.2⟩ j = kids.getD j []) := by
  unfold groupedCsc
  rw [wr_eq (by omega), ok_bind]
  refine forRange_wp' (fun i (s : List Nat × List Nat) => s.1.length = kids.length + 1 ∧
      s.2.length = (kids.map List.length).sum ∧
      (∀ j, j ≤ i → s.1.getD j 0 = ((kids.take j).map List.length).sum) ∧
      ∀ j, j < i → slice s.2 (s.1.getD j 0) (s.1.getD (j + 1) 0) = kids.getD j [])
    (Nat.zero_le _) ⟨by simpa using hp, hi, ?_, by omega⟩ ?_ ?_
  · intro j hj
    have : j = 0 := by omega
    subst this
    dsimp only
    rw [getD_set, if_pos ⟨rfl, by omega⟩]
    rfl
  · rintro i ⟨a, b⟩ _ hlt ⟨h1, h2, h3, h4⟩
    dsimp only at h1 h2 h3 h4 ⊢
    rw [rd_getD [] hlt, ok_bind, rd_getD 0 (by omega), ok_bind, wr_eq (by omega), ok_bind, wp_bind]
    have hs := sum_take_succ kids i hlt
    have hle := sum_take_le kids (i + 1)
    have hi3 := h3 i (le_refl i)
    refine wp_mono (copyTo_wp (l := kids.getD i []) (set := b) (a := a.getD i 0) (by omega)) ?_
    rintro b' ⟨c1, c2, c3⟩
    rw [wp_ok]
    dsimp only
    have hg : ∀ j, j ≤ i → (a.set (i + 1) ((kids.getD i []).length + a.getD i 0)).getD j 0 = a.getD j 0 := by
      intro j hj
      rw [getD_set, if_neg (by omega)]
    have hg' : (a.set (i + 1) ((kids.getD i []).length + a.getD i 0)).getD (i + 1) 0
        = a.getD i 0 + (kids.getD i []).length := by
      rw [getD_set, if_pos ⟨rfl, by omega⟩, Nat.add_comm]
    refine ⟨by simpa using h1, by omega, fun j hj => ?_, fun j hj => ?_⟩
    · by_cases e : j = i + 1
      · subst e
        rw [hg', hi3, hs]
      · rw [hg j (by omega)]
        exact h3 j (by omega)
    · by_cases e : j = i
      · subst e
        rw [hg j (le_refl j), hg']
        exact c2
      · rw [hg j (by omega), hg (j + 1) (by omega), ← h4 j (by omega)]
        have hmono : a.getD (j + 1) 0 ≤ a.getD i 0 := by
          rw [h3 (j + 1) (by omega), hi3]
          have := sum_take_le (kids.take i) (j + 1)
          rwa [List.take_take, Nat.min_eq_left (by omega)] at this
        exact slice_congr (fun k _ hk => c3 k (.inl (by omega)))
  · rintro ⟨a, b⟩ ⟨h1, h2, h3, h4⟩
    dsimp only at h1 h2 h3 h4 ⊢
    have hend := h3 kids.length (le_refl _)
    rw [List.take_length] at hend
    have hcol : ∀ j, j < kids.length → Csc.col ⟨kids.length, a, b⟩ j = kids.getD j [] := by
      intro j hj
      exact h4 j hj
    refine ⟨⟨h1, ?_, ?_, ?_, ?_⟩, hend, hcol⟩
    · exact h3 0 (Nat.zero_le _)
    · intro j hj
      show a.getD j 0 ≤ a.getD (j + 1) 0
      rw [h3 j (by have : j < kids.length := hj; omega), h3 (j + 1) hj, sum_take_succ kids j hj]
      omega
    · show a.getD kids.length 0 ≤ b.length
      omega
    · intro j hj t ht
      have hj' : j < kids.length := hj
      rw [hcol j hj, List.getD_eq_getElem _ _ hj'] at ht
      exact hr _ (List.getElem_mem _) t ht

end Verif.Greedy
