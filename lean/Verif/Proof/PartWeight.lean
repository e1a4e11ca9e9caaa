import Verif.Spec.PartWeight
import Verif.Proof.GroupDag
import Verif.Proof.Graph
import Verif.Proof.SchedWin
import Verif.Spec.Search
import Mathlib.Data.List.GetD

/-! # Partition by weight and by breadth-first search: the loops -/

namespace Verif.PartW
open Res Csc Hdagg

variable {K : Type} {g : Csc}

theorem wsum_snoc (A : Ops K) (weight : List K) (l : List Nat) (x : Nat) :
    wsum A weight (l ++ [x]) = A.add (wsum A weight l) (weight.getD x A.zero) := by
  simp [wsum]

theorem Below.nil (A : Ops K) (weight : List K) (e : K) : Below A weight e [] := by
  intro p q h hq
  have := List.append_eq_nil_iff.1 h.symm
  exact absurd this.2 hq

theorem Below.snoc {A : Ops K} {weight : List K} {e : K} {l : List Nat} (h : Below A weight e l)
    (hl : A.lt (wsum A weight l) e = true) (x : Nat) : Below A weight e (l ++ [x]) := by
  intro p q hpq hq
  rcases List.eq_nil_or_concat q with h0 | ⟨q', y, h0⟩
  · exact absurd h0 hq
  · rw [List.concat_eq_append] at h0
    subst h0
    rw [← List.append_assoc] at hpq
    have h1 := List.append_inj_left' hpq rfl
    by_cases hq' : q' = []
    · subst hq'
      rw [List.append_nil] at h1
      rw [← h1]; exact hl
    · exact h p q' h1 hq'

theorem range_snoc_wsum (A : Ops K) (weight : List K) (k : Nat) :
    wsum A weight (List.range (k + 1)) = A.add (wsum A weight (List.range k)) (weight.getD k A.zero) := by
  rw [List.range_succ, wsum_snoc]

theorem targets_wp (A : Ops K) {n : Nat} {weight : List K} (hw : weight.length = n) (parts : Nat)
    {target : Option (List K)} (ht : ∀ t, target = some t → t.length = parts) :
    wp (targets A n weight parts target) (fun e => e.length = parts ∧
      ∀ j, j < parts → e.getD j A.zero = goal A n weight parts target j) := by
  unfold targets
  cases target with
  | some t => exact ⟨ht t rfl, fun _ _ => rfl⟩
  | none =>
    dsimp only
    rw [wp_bind]
    have : wp (sumVector A n weight) (fun s => s = wsum A weight (List.range n)) := by
      unfold sumVector
      refine forRange_wp' (fun k s => s = wsum A weight (List.range k)) (Nat.zero_le _) rfl ?_ (fun _ h => h)
      intro i s _ hi h
      rw [rd_getD A.zero (by omega), ok_bind, wp_ok, range_snoc_wsum, h]
    refine wp_mono this ?_
    intro s hs
    rw [wp_ok]
    refine ⟨by simp, ?_⟩
    intro j hj
    rw [getD_replicate _ _ _ _ hj, hs]
    rfl

/-! ### `partition_by_weight` -/

theorem takePart_wp (A : Ops K) {n : Nat} {set : List Nat} {weight : List K} (hset : set.length = n)
    (hs : ∀ x ∈ set, x < weight.length) (e : K) {j : Nat} (hj : j ≤ n) :
    wp (takePart A n set weight e j) (fun r => j ≤ r.2 ∧ r.2 ≤ n ∧
      Below A weight e (slice set j r.2) ∧
      (A.lt (wsum A weight (slice set j r.2)) e = false ∨ r.2 = n)) := by
  unfold takePart
  refine whileF_wp (fun s => j ≤ s.2 ∧ s.2 ≤ n ∧ Below A weight e (slice set j s.2) ∧
    s.1 = wsum A weight (slice set j s.2)) (fun s => n - s.2) ?_ n (A.zero, j) (by dsimp only; omega) ?_
  · rintro ⟨c, k⟩ ⟨h1, h2, h3, h4⟩
    dsimp only at h1 h2 h3 h4
    rw [wp_ok]
    dsimp only
    cases hlt : A.lt c e with
    | false =>
      simp only [Bool.false_and, Bool.false_eq_true, if_false]
      exact ⟨h1, h2, h3, .inl (by rw [← h4]; exact hlt)⟩
    | true =>
      by_cases hk : k < n
      · simp only [Bool.true_and, hk, decide_true, if_true]
        refine ⟨by omega, ?_⟩
        have hx := hs _ (List.mem_of_getElem? (getElem?_getD 0 (show k < set.length by omega)))
        rw [rd_getD 0 (by omega), ok_bind, rd_getD A.zero hx, ok_bind, wp_ok]
        have hd : slice set j (k + 1) = slice set j k ++ [set.getD k 0] := by
          unfold slice
          rw [show k + 1 - j = k - j + 1 by omega, List.take_add_one, List.getElem?_drop,
            show j + (k - j) = k by omega, getElem?_getD 0 (show k < set.length by omega), Option.toList_some]
        dsimp only
        rw [hd]
        exact ⟨⟨by omega, by omega, h3.snoc (by rw [← h4]; exact hlt) _, by rw [wsum_snoc, h4]⟩, by omega⟩
      · simp only [hk, decide_false, Bool.and_false, Bool.false_eq_true, if_false]
        exact ⟨h1, h2, h3, .inr (by omega)⟩
  · dsimp only
    have : slice set j j = [] := by
      simp [slice]
    rw [this]
    exact ⟨Nat.le_refl _, hj, Below.nil _ _ _, rfl⟩

/-- What `partition_by_weight` returns. -/
theorem byWeight_wp (A : Ops K) {n : Nat} {set : List Nat} {weight : List K} (hw : weight.length = n)
    (hset : set.length = n) (hs : ∀ x ∈ set, x < n) (parts : Nat) {target : Option (List K)}
    (ht : ∀ t, target = some t → t.length = parts) :
    wp (byWeight A n set weight parts target) (fun ind => ind.length = parts + 1 ∧ ind.getD 0 0 = 0 ∧
      ∀ j, j < parts → ind.getD j 0 ≤ ind.getD (j + 1) 0 ∧ ind.getD (j + 1) 0 ≤ n ∧
        Below A weight (goal A n weight parts target j) (slice set (ind.getD j 0) (ind.getD (j + 1) 0)) ∧
        (A.lt (wsum A weight (slice set (ind.getD j 0) (ind.getD (j + 1) 0)))
          (goal A n weight parts target j) = false ∨ ind.getD (j + 1) 0 = n)) := by
  unfold byWeight
  rw [wp_bind]
  refine wp_mono (targets_wp A hw parts ht) ?_
  rintro even ⟨he, hg⟩
  rw [wp_bind]
  refine forRange_wp' (fun i (s : Nat × List Nat) => s.2.length = parts + 1 ∧ s.2.getD 0 0 = 0 ∧
    s.1 = s.2.getD i 0 ∧ s.1 ≤ n ∧
      ∀ j, j < i → s.2.getD j 0 ≤ s.2.getD (j + 1) 0 ∧ s.2.getD (j + 1) 0 ≤ n ∧
        Below A weight (goal A n weight parts target j) (slice set (s.2.getD j 0) (s.2.getD (j + 1) 0)) ∧
        (A.lt (wsum A weight (slice set (s.2.getD j 0) (s.2.getD (j + 1) 0)))
          (goal A n weight parts target j) = false ∨ s.2.getD (j + 1) 0 = n)) (Nat.zero_le _) ?_ ?_ ?_
  · refine ⟨by simp, ?_, ?_, Nat.zero_le _, fun j hj => by omega⟩ <;>
    · dsimp only
      rw [getD_replicate _ _ _ _ (by omega)]
  · rintro i ⟨j0, ind⟩ _ hi ⟨h1, h2, h3, h4, h5⟩
    dsimp only at h1 h2 h3 h4 h5
    dsimp only
    rw [rd_getD A.zero (by omega), ok_bind, wp_bind, hg i hi]
    refine wp_mono (takePart_wp A hset (by rw [hw]; exact hs) _ h4) ?_
    rintro ⟨c, k⟩ ⟨k1, k2, k3, k4⟩
    dsimp only at k1 k2 k3 k4
    rw [wr_eq (by omega), ok_bind, wp_ok]
    dsimp only
    refine ⟨by simpa using h1, ?_, ?_, k2, ?_⟩
    · rw [getD_set, if_neg (by omega), h2]
    · rw [getD_set, if_pos ⟨rfl, by omega⟩]
    · intro j hj
      rw [getD_set, if_neg (by omega), getD_set]
      by_cases hji : j = i
      · subst hji
        rw [if_pos ⟨rfl, by omega⟩, ← h3]
        exact ⟨k1, k2, k3, k4⟩
      · rw [if_neg (by omega)]
        exact h5 j (by omega)
  · rintro ⟨j0, ind⟩ ⟨h1, h2, h3, h4, h5⟩
    rw [wp_ok]
    exact ⟨h1, h2, h5⟩

/-! ### `partition_by_bfs` -/

theorem flatten_set_last : ∀ (l : List (List Nat)) (i x : Nat), i < l.length →
    (∀ j, i < j → l.getD j [] = []) →
    (l.set i (l.getD i [] ++ [x])).flatten = l.flatten ++ [x] := by
  intro l
  induction l with
  | nil => intro i x h; simp at h
  | cons a l ih =>
    intro i x h he
    cases i with
    | zero =>
      have hl : l.flatten = [] := by
        rw [List.flatten_eq_nil_iff]
        intro b hb
        obtain ⟨j, hj, rfl⟩ := List.getElem_of_mem hb
        have := he (j + 1) (by omega)
        rw [List.getD_cons_succ, List.getD_eq_getElem?_getD, List.getElem?_eq_getElem hj] at this
        exact this
      simp [hl]
    | succ i =>
      simp only [List.set_cons_succ, List.getD_cons_succ, List.flatten_cons]
      rw [ih i x (by simpa using h), List.append_assoc]
      intro j hj
      have := he (j + 1) (by omega)
      rwa [List.getD_cons_succ] at this

/-- The order of discovery while the search runs: `a` nodes have been left, `b` have been begun. -/
structure Disc (g : Csc) (O : List Nat) (a b : Nat) : Prop where
  nodup : O.Nodup
  closed : ∀ j, j < a → ∀ y ∈ g.col (O.getD j 0), y ∈ O
  found : ∀ k, k < O.length → (∃ j, j < b ∧ g.FoundBy O j k) ∨
    ((∀ j, j < k → ∀ y ∈ g.col (O.getD j 0), y ∈ O.take k) ∧ ∀ x, x < O.getD k 0 → x ∈ O.take k)
  queue : ∀ k k' j j', k < k' → k' < O.length → g.FoundBy O j k → g.FoundBy O j' k' → j ≤ j'

theorem foundBy_snoc {O : List Nat} {x j k : Nat} (hk : k < O.length) :
    g.FoundBy (O ++ [x]) j k ↔ g.FoundBy O j k := by
  unfold FoundBy
  constructor
  · rintro ⟨h1, h2, h3⟩
    rw [List.getD_append _ _ _ _ hk, List.getD_append _ _ _ _ (by omega)] at h2
    refine ⟨h1, h2, ?_⟩
    intro i hi
    have := h3 i hi
    rwa [List.getD_append _ _ _ _ hk, List.getD_append _ _ _ _ (by omega)] at this
  · rintro ⟨h1, h2, h3⟩
    rw [List.getD_append _ _ _ _ hk, List.getD_append _ _ _ _ (by omega)]
    refine ⟨h1, h2, ?_⟩
    intro i hi
    rw [List.getD_append _ _ _ _ (by omega)]
    exact h3 i hi

theorem foundBy_uniq {O : List Nat} {j j' k : Nat} (h : g.FoundBy O j k) (h' : g.FoundBy O j' k) : j = j' := by
  rcases Nat.lt_trichotomy j j' with hlt | he | hlt
  · exact absurd h.2.1 (h'.2.2 j hlt)
  · exact he
  · exact absurd h'.2.1 (h.2.2 j' hlt)

theorem getD_snoc_len (O : List Nat) (x : Nat) : (O ++ [x]).getD O.length 0 = x := by
  rw [List.getD_append_right _ _ _ _ (Nat.le_refl _)]; simp

theorem getD_not_mem_take {O : List Nat} (hn : O.Nodup) {k : Nat} (hk : k < O.length) :
    O.getD k 0 ∉ O.take k := by
  intro hm
  obtain ⟨m, hm', he⟩ := List.getElem_of_mem hm
  rw [List.length_take] at hm'
  rw [List.getElem_take, List.getD_eq_getElem?_getD, List.getElem?_eq_getElem hk] at he
  have := (List.Nodup.getElem_inj_iff hn).1 he
  omega

theorem nodup_snoc {O : List Nat} (h : O.Nodup) {x : Nat} (hx : x ∉ O) : (O ++ [x]).Nodup := by
  rw [List.nodup_append]
  refine ⟨h, by simp, ?_⟩
  rintro a ha b hb rfl
  rw [List.mem_singleton] at hb
  exact hx (hb ▸ ha)

theorem Disc.keep {O : List Nat} {a b : Nat} (h : Disc g O a b) (x : Nat) {k : Nat} (hk : k < O.length) :
    (∃ j, j < b ∧ g.FoundBy (O ++ [x]) j k) ∨
    ((∀ j, j < k → ∀ y ∈ g.col ((O ++ [x]).getD j 0), y ∈ (O ++ [x]).take k) ∧
      ∀ y, y < (O ++ [x]).getD k 0 → y ∈ (O ++ [x]).take k) := by
  rw [List.take_append_of_le_length (by omega), List.getD_append _ _ _ _ hk]
  rcases h.found k hk with ⟨j, h1, h2⟩ | ⟨h1, h2⟩
  · exact .inl ⟨j, h1, (foundBy_snoc hk).2 h2⟩
  · refine .inr ⟨?_, h2⟩
    intro j hj
    rw [List.getD_append _ _ _ _ (by omega)]
    exact h1 j hj

/-- A neighbour of the node at position `d` is discovered. -/
theorem Disc.edge {O : List Nat} {d : Nat} (h : Disc g O d (d + 1)) (hd : d < O.length) {x : Nat}
    (hx : x ∉ O) (hm : x ∈ g.col (O.getD d 0)) : Disc g (O ++ [x]) d (d + 1) := by
  have hF : g.FoundBy (O ++ [x]) d O.length := by
    refine ⟨hd, ?_, ?_⟩
    · rw [getD_snoc_len, List.getD_append _ _ _ _ hd]; exact hm
    · intro i hi
      rw [getD_snoc_len, List.getD_append _ _ _ _ (by omega)]
      exact fun hc => hx (h.closed i hi x hc)
  refine ⟨nodup_snoc h.nodup hx, ?_, ?_, ?_⟩
  · intro j hj y hy
    rw [List.getD_append _ _ _ _ (by omega)] at hy
    exact List.mem_append_left _ (h.closed j hj y hy)
  · intro k hk
    rw [List.length_append, List.length_singleton] at hk
    by_cases hkl : k < O.length
    · exact h.keep x hkl
    · obtain rfl : k = O.length := by omega
      exact .inl ⟨d, by omega, hF⟩
  · intro k k' j j' hkk hk' hj hj'
    rw [List.length_append, List.length_singleton] at hk'
    have hk : k < O.length := by omega
    by_cases hkl : k' < O.length
    · exact h.queue k k' j j' hkk hkl ((foundBy_snoc hk).1 hj) ((foundBy_snoc hkl).1 hj')
    · obtain rfl : k' = O.length := by omega
      rw [foundBy_uniq hj' hF]
      have hj0 := (foundBy_snoc hk).1 hj
      rcases h.found k hk with ⟨j1, h1, h2⟩ | ⟨h1, -⟩
      · rw [foundBy_uniq hj0 h2]; omega
      · exact absurd (h1 j hj0.1 _ hj0.2.1) (getD_not_mem_take h.nodup hk)

/-- All neighbours of the node at position `d` are discovered. -/
theorem Disc.leave {O : List Nat} {d : Nat} (h : Disc g O d (d + 1))
    (hc : ∀ y ∈ g.col (O.getD d 0), y ∈ O) : Disc g O (d + 1) (d + 1) := by
  refine ⟨h.nodup, ?_, h.found, h.queue⟩
  intro j hj
  by_cases hjd : j = d
  · subst hjd; exact hc
  · exact h.closed j (by omega)

theorem Disc.begin {O : List Nat} {d : Nat} (h : Disc g O d d) : Disc g O d (d + 1) := by
  refine ⟨h.nodup, h.closed, ?_, h.queue⟩
  intro k hk
  rcases h.found k hk with ⟨j, h1, h2⟩ | h1
  · exact .inl ⟨j, by omega, h2⟩
  · exact .inr h1

/-- A new search begins. -/
theorem Disc.restart {O : List Nat} (h : Disc g O O.length O.length) {x : Nat} (hx : x ∉ O)
    (hs : ∀ y, y < x → y ∈ O) : Disc g (O ++ [x]) O.length O.length := by
  refine ⟨nodup_snoc h.nodup hx, ?_, ?_, ?_⟩
  · intro j hj y hy
    rw [List.getD_append _ _ _ _ hj] at hy
    exact List.mem_append_left _ (h.closed j hj y hy)
  · intro k hk
    rw [List.length_append, List.length_singleton] at hk
    by_cases hkl : k < O.length
    · exact h.keep x hkl
    · obtain rfl : k = O.length := by omega
      rw [getD_snoc_len, List.take_left]
      refine .inr ⟨?_, hs⟩
      intro j hj y hy
      rw [List.getD_append _ _ _ _ hj] at hy
      exact h.closed j hj y hy
  · intro k k' j j' hkk hk' hj hj'
    rw [List.length_append, List.length_singleton] at hk'
    have hk : k < O.length := by omega
    by_cases hkl : k' < O.length
    · exact h.queue k k' j j' hkk hkl ((foundBy_snoc hk).1 hj) ((foundBy_snoc hkl).1 hj')
    · obtain rfl : k' = O.length := by omega
      have h2 := hj'.2.1
      rw [getD_snoc_len, List.getD_append _ _ _ _ hj'.1] at h2
      exact absurd (h.closed j' hj'.1 x h2) hx

theorem Disc.nil : Disc g [] 0 0 := by
  refine ⟨List.nodup_nil, ?_, ?_, ?_⟩
  · intro j hj; omega
  · intro k hk; simp at hk
  · intro k k' j j' _ hk; simp at hk

theorem Disc.order {O : List Nat} {a b : Nat} (h : Disc g O a b) : g.BfsOrder O where
  nodup := h.nodup
  found k hk := by
    rcases h.found k hk with ⟨j, -, h2⟩ | h1
    · exact .inl ⟨j, h2⟩
    · exact .inr h1
  queue := h.queue

/-- The arrays while part `i` is filled; `a` is the number of nodes whose neighbours are all
discovered. -/
structure Core (g : Csc) (P i a : Nat) (s : St K) : Prop where
  visLen : s.vis.length = g.n
  len : s.parts.length = P
  later : ∀ j, i < j → s.parts.getD j [] = []
  mem : ∀ x, x < g.n → (s.vis.getD x false = true ↔ x ∈ s.parts.flatten ++ s.queue)
  lt : ∀ x ∈ s.parts.flatten ++ s.queue, x < g.n
  cnt : s.cnt = s.parts.flatten.length
  disc : Disc g (s.parts.flatten ++ s.queue) a s.cnt

theorem Core.room {P i a : Nat} {s : St K} (h : Core g P i a s) : s.cnt + s.queue.length ≤ g.n := by
  rw [h.cnt, ← List.length_append]
  have := h.disc.nodup.subperm (l₂ := List.range g.n) (fun x hx => List.mem_range.2 (h.lt x hx))
  have := this.length_le
  simpa using this

theorem Core.push {P i a : Nat} {s : St K} (h : Core g P i a s) {x : Nat} (hx : x < g.n)
    (hd : Disc g (s.parts.flatten ++ s.queue ++ [x]) a s.cnt) :
    Core g P i a { s with queue := s.queue ++ [x], vis := s.vis.set x true } := by
  have hvl := h.visLen
  refine ⟨by simpa using h.visLen, h.len, h.later, ?_, ?_, h.cnt, ?_⟩
  · intro y hy
    dsimp only
    rw [getD_set, ← List.append_assoc, List.mem_append, List.mem_singleton, ← h.mem y hy]
    by_cases hyx : y = x
    · subst hyx
      rw [if_pos ⟨rfl, by omega⟩]
      simp
    · rw [if_neg (by omega)]
      simp [hyx]
  · intro y hy
    dsimp only at hy
    rw [← List.append_assoc, List.mem_append, List.mem_singleton] at hy
    rcases hy with hy | hy
    · exact h.lt y hy
    · omega
  · dsimp only
    rw [← List.append_assoc]
    exact hd

/-- What a node taken from the queue changes. -/
theorem pop_wp (A : Ops K) (hwf : g.WF) {weight : List K} (hw : weight.length = g.n) {P i : Nat} (hi : i < P)
    {s : St K} (h : Core g P i s.cnt s) {cn : Nat} {q : List Nat} (hq : s.queue = cn :: q) :
    wp (pop A g.p g.i weight i s) (fun s' => Core g P i s'.cnt s' ∧ s'.cnt = s.cnt + 1 ∧
      s'.parts = s.parts.set i (s.parts.getD i [] ++ [cn]) ∧
      s'.c = A.add s.c (weight.getD cn A.zero)) := by
  have hcn : cn < g.n := h.lt cn (by rw [hq]; simp)
  have hlen := h.len
  unfold pop
  rw [hq]
  dsimp only
  rw [rd_getD A.zero (by omega), ok_bind, rd_getD [] (by omega), ok_bind, wr_eq (by omega), ok_bind,
    hwf.rd_p (by omega), ok_bind, hwf.rd_p (by omega), ok_bind]
  have hfl := flatten_set_last s.parts i cn (by omega) h.later
  have hall : (s.parts.set i (s.parts.getD i [] ++ [cn])).flatten ++ q = s.parts.flatten ++ s.queue := by
    rw [hq, hfl, List.append_assoc]; rfl
  refine forRange_wp' (fun k (s' : St K) => Core g P i s.cnt s' ∧ s'.cnt = s.cnt + 1 ∧
      s'.parts = s.parts.set i (s.parts.getD i [] ++ [cn]) ∧
      s'.c = A.add s.c (weight.getD cn A.zero) ∧
      ∀ m, g.ptr cn ≤ m → m < k → g.idx m ∈ s'.parts.flatten ++ s'.queue) (hwf.mono cn hcn) ?_ ?_ ?_
  · refine ⟨⟨h.visLen, by simpa using h.len, ?_, ?_, ?_, ?_, ?_⟩, rfl, rfl, rfl, ?_⟩
    · intro j hj
      dsimp only
      rw [getD_set, if_neg (by omega)]
      exact h.later j hj
    · intro x hx
      dsimp only
      rw [hall]
      exact h.mem x hx
    · dsimp only
      rw [hall]
      exact h.lt
    · dsimp only
      rw [hfl, h.cnt]
      simp
    · dsimp only
      rw [hall]
      exact h.disc.begin
    · intro m h1 h2; omega
  · rintro k s' hk1 hk2 ⟨h1, h2, h3, h4, h5⟩
    have hm := hwf.mono_le (show cn + 1 ≤ g.n by omega) (Nat.le_refl _)
    rw [hwf.rd_i (by omega), ok_bind]
    have hx := hwf.idx_lt hcn hk1 hk2
    unfold edge
    have := h1.visLen
    rw [rd_getD false (by omega), ok_bind]
    split
    · rename_i hv
      rw [wr_eq (by omega), ok_bind, wp_ok]
      have hnm : g.idx k ∉ s'.parts.flatten ++ s'.queue := by
        intro hc
        rw [(h1.mem _ hx).2 hc] at hv
        cases hv
      have hfl' : s'.parts.flatten = s.parts.flatten ++ [cn] := by rw [h3, hfl]
      have hgd : (s'.parts.flatten ++ s'.queue).getD s.cnt 0 = cn := by
        rw [hfl', h.cnt, List.append_assoc, List.getD_append_right _ _ _ _ (Nat.le_refl _)]
        simp
      refine ⟨h1.push hx ?_, h2, h3, h4, ?_⟩
      · rw [h2]
        have hdisc := h1.disc
        rw [h2] at hdisc
        refine hdisc.edge ?_ hnm ?_
        · rw [hfl', h.cnt]; simp
        · rw [hgd]
          exact (hwf.mem_col hcn).2 ⟨k, hk1, hk2, rfl⟩
      · intro m hm1 hm2
        dsimp only
        rw [← List.append_assoc]
        by_cases hmk : m = k
        · subst hmk; simp
        · exact List.mem_append_left _ (h5 m hm1 (by omega))
    · rename_i hv
      rw [wp_ok]
      refine ⟨h1, h2, h3, h4, ?_⟩
      intro m hm1 hm2
      by_cases hmk : m = k
      · subst hmk
        exact (h1.mem _ hx).1 (by simpa using hv)
      · exact h5 m hm1 (by omega)
  · rintro s' ⟨h1, h2, h3, h4, h5⟩
    refine ⟨⟨h1.visLen, h1.len, h1.later, h1.mem, h1.lt, h1.cnt, ?_⟩, h2, h3, h4⟩
    have hdisc := h1.disc
    rw [h2] at hdisc ⊢
    refine hdisc.leave ?_
    have hgd : (s'.parts.flatten ++ s'.queue).getD s.cnt 0 = cn := by
      rw [h3, hfl, h.cnt, List.append_assoc, List.getD_append_right _ _ _ _ (Nat.le_refl _)]
      simp
    rw [hgd]
    intro y hy
    obtain ⟨m, hm1, hm2, rfl⟩ := (hwf.mem_col hcn).1 hy
    exact h5 m hm1 hm2

/-- The state while part `i` with target `e` is filled. -/
structure Fill (A : Ops K) (g : Csc) (P : Nat) (weight : List K) (i : Nat) (e : K) (s0 s : St K) : Prop where
  core : Core g P i s.cnt s
  wgt : s.c = wsum A weight (s.parts.getD i [])
  other : ∀ j, j ≠ i → s.parts.getD j [] = s0.parts.getD j []
  below : A.Total → Below A weight e (s.parts.getD i [])
  le : s0.cnt ≤ s.cnt

theorem Fill.step {A : Ops K} {P : Nat} {weight : List K} {i : Nat} {e : K} {s0 s s' : St K}
    (h : Fill A g P weight i e s0 s) (hi : i < P) {cn : Nat} (h1 : Core g P i s'.cnt s') (h2 : s'.cnt = s.cnt + 1)
    (h3 : s'.parts = s.parts.set i (s.parts.getD i [] ++ [cn]))
    (h4 : s'.c = A.add s.c (weight.getD cn A.zero)) (hlt : A.Total → A.lt s.c e = true) :
    Fill A g P weight i e s0 s' := by
  have hlen := h.core.len
  have hg : s'.parts.getD i [] = s.parts.getD i [] ++ [cn] := by
    rw [h3, getD_set, if_pos ⟨rfl, by omega⟩]
  refine ⟨h1, by rw [hg, wsum_snoc, h4, h.wgt], ?_, ?_, by have := h.le; omega⟩
  · intro j hj
    rw [h3, getD_set, if_neg (by omega)]
    exact h.other j hj
  · intro hT
    rw [hg]
    exact (h.below hT).snoc (by rw [← h.wgt]; exact hlt hT) _

theorem drain_wp (A : Ops K) (hwf : g.WF) {weight : List K} (hw : weight.length = g.n) {P i : Nat} (hi : i < P)
    {e : K} {s0 s : St K} (h : Fill A g P weight i e s0 s) (hq : s.queue ≠ []) (hlt : A.lt s.c e = true) :
    wp (drain A g.n g.p g.i weight i e s) (fun s' => Fill A g P weight i e s0 s' ∧ s.cnt < s'.cnt) := by
  unfold drain
  refine loopF_wp (fun s' => Fill A g P weight i e s0 s' ∧ (s.cnt < s'.cnt ∨ s'.cnt = s.cnt ∧ s'.queue ≠ []) ∧
    (A.Total → A.lt s'.c e = true)) (fun s' => g.n - s'.cnt) ?_ (g.n + 1) s (by omega)
    ⟨h, .inr ⟨rfl, hq⟩, fun _ => hlt⟩
  rintro s' ⟨h1, h2, h3⟩
  split
  · rename_i h0
    rw [wp_ok, Ctl.post_brk]
    exact ⟨h1, h2.resolve_right (fun hc => hc.2 h0)⟩
  · rename_i h0
    obtain ⟨cn, q, hcn⟩ := List.exists_cons_of_ne_nil h0
    have hroom := h1.core.room
    rw [hcn] at hroom
    simp only [List.length_cons] at hroom
    rw [wp_bind]
    refine wp_mono (pop_wp A hwf hw hi h1.core hcn) ?_
    rintro s'' ⟨k1, k2, k3, k4⟩
    have hF := h1.step hi k1 k2 k3 k4 h3
    split
    · rw [wp_ok, Ctl.post_brk]
      exact ⟨hF, by rcases h2 with h2 | h2 <;> omega⟩
    · rename_i hge
      rw [wp_ok, Ctl.post_next]
      refine ⟨⟨hF, .inl (by rcases h2 with h2 | h2 <;> omega), ?_⟩, by omega⟩
      intro hT
      have := hT s''.c e
      cases hl : A.lt s''.c e with
      | true => rfl
      | false => rw [hl] at this; exact absurd this hge

theorem firstFree_wp {n : Nat} {vis : List Bool} (hv : vis.length = n) :
    wp (firstFree n vis) (Ctl.post (fun _ => ∀ x, x < n → vis.getD x false = true)
      (fun k => k < n ∧ vis.getD k false = false ∧ ∀ x, x < k → vis.getD x false = true)) := by
  unfold firstFree
  refine forRangeB_wp (fun k _ => ∀ x, x < k → vis.getD x false = true)
    (fun k => k < n ∧ vis.getD k false = false ∧ ∀ x, x < k → vis.getD x false = true) (Nat.zero_le _)
    (by intro x hx; omega) ?_
  intro k s _ hk hI
  rw [rd_getD false (by omega), ok_bind]
  split
  · rename_i h
    rw [wp_ok, Ctl.post_brk]
    exact ⟨hk, h, hI⟩
  · rename_i h
    rw [wp_ok, Ctl.post_next]
    intro x hx
    by_cases hxk : x = k
    · subst hxk
      simpa using h
    · exact hI x (by omega)

theorem fillPart_wp (A : Ops K) (hwf : g.WF) {weight : List K} (hw : weight.length = g.n) {P i : Nat}
    (hi : i < P) {e : K} {s : St K} (h : Core g P i s.cnt s) (hc : s.c = A.zero) (hp : s.parts.getD i [] = [])
    (hq0 : s.queue = [] ∨ 0 < s.cnt) :
    wp (fillPart A g.n g.p g.i weight i e s) (fun s' => Fill A g P weight i e s s' ∧
      (s'.queue = [] ∨ 0 < s'.cnt) ∧ (A.lt s'.c e = false ∨ s'.cnt = g.n)) := by
  unfold fillPart
  refine loopF_wp (fun s' => Fill A g P weight i e s s' ∧ (s'.queue = [] ∨ 0 < s'.cnt)) (fun s' => g.n - s'.cnt) ?_
    (g.n + 1) s (by omega) ⟨⟨h, by rw [hc, hp]; rfl, fun _ _ => rfl, fun _ => by rw [hp]; exact Below.nil _ _ _,
      Nat.le_refl _⟩, hq0⟩
  rintro s' ⟨h1, h2⟩
  have hroom := h1.core.room
  split
  · rename_i h0
    rw [wp_ok, Ctl.post_brk]
    refine ⟨h1, h2, ?_⟩
    rw [Bool.and_eq_false_iff] at h0
    rcases h0 with h0 | h0
    · exact .inl h0
    · rw [decide_eq_false_iff_not] at h0
      exact .inr (by omega)
  · rename_i h0
    have hlt : A.lt s'.c e = true ∧ s'.cnt < g.n := by
      rw [Bool.not_eq_false, Bool.and_eq_true, decide_eq_true_iff] at h0
      exact h0
    split
    · rename_i hqe
      rw [wp_bind]
      refine wp_mono (firstFree_wp h1.core.visLen) ?_
      intro r hr
      cases r with
      | next _ =>
        rw [Ctl.post_next] at hr
        exfalso
        have hsub : (List.range g.n) ⊆ s'.parts.flatten ++ s'.queue := by
          intro x hx
          have hx := List.mem_range.1 hx
          exact (h1.core.mem x hx).1 (hr x hx)
        have := (List.nodup_range.subperm hsub).length_le
        have hcnt := h1.core.cnt
        rw [hqe, List.append_nil, ← hcnt, List.length_range] at this
        omega
      | brk k =>
        rw [Ctl.post_brk] at hr
        obtain ⟨hr1, hr2, hr3⟩ := hr
        have hvl := h1.core.visLen
        dsimp only
        rw [wr_eq (by omega), ok_bind, wp_bind]
        have hnm : k ∉ s'.parts.flatten ++ s'.queue := by
          intro hc
          rw [(h1.core.mem _ hr1).2 hc] at hr2
          cases hr2
        have hdisc := h1.core.disc
        rw [hqe, List.append_nil, h1.core.cnt] at hdisc
        rw [hqe, List.append_nil] at hnm
        have hc' := h1.core.push hr1 (by
          rw [hqe, List.append_nil, h1.core.cnt]
          refine hdisc.restart hnm ?_
          intro y hy
          have := (h1.core.mem y (by omega)).1 (hr3 y hy)
          rwa [hqe, List.append_nil] at this)
        rw [hqe, List.nil_append] at hc'
        refine wp_mono (drain_wp A hwf hw hi (s0 := s) (e := e) (weight := weight)
          ⟨hc', h1.wgt, h1.other, h1.below, h1.le⟩ (by simp) hlt.1) ?_
        rintro s'' ⟨k1, k2⟩
        dsimp only at k2
        have := k1.core.room
        rw [wp_ok, Ctl.post_next]
        exact ⟨⟨k1, .inr (by omega)⟩, by omega⟩
    · rename_i hqe
      rw [wp_bind]
      refine wp_mono (drain_wp A hwf hw hi h1 hqe hlt.1) ?_
      rintro s'' ⟨k1, k2⟩
      have := k1.core.room
      rw [wp_ok, Ctl.post_next]
      exact ⟨⟨k1, .inr (by omega)⟩, by omega⟩

/-- Between the parts: `i` parts are done. -/
structure Outer (A : Ops K) (g : Csc) (P : Nat) (weight : List K) (goal : Nat → K) (i : Nat) (s : St K) :
    Prop where
  core : Core g P i s.cnt s
  queue : s.queue = [] ∨ 0 < s.cnt
  this : s.parts.getD i [] = []
  below : A.Total → ∀ j, j < i → Below A weight (goal j) (s.parts.getD j [])
  full : ∀ j, j < i → A.lt (wsum A weight (s.parts.getD j [])) (goal j) = false ∨
    (s.cnt = g.n ∧ ∀ k, j < k → s.parts.getD k [] = [])

/-- What is left goes to the last part: first the queue, then the nodes not discovered. -/
theorem leftover_wp {P i a : Nat} (hP : 0 < P) {s : St K} (h : Core g P i a s) :
    wp (leftover g.n P s) (fun l => l.length = P ∧ l.flatten = s.parts.flatten ++ s.queue ++
        (List.range g.n).filter (fun x => decide (x ∉ s.parts.flatten ++ s.queue)) ∧
      (∀ j, j + 1 < P → l.getD j [] = s.parts.getD j []) ∧
      (∃ t, l.getD (P - 1) [] = s.parts.getD (P - 1) [] ++ t) ∧
      (s.cnt = g.n → l = s.parts)) := by
  unfold leftover
  rw [wp_bind]
  have hl := h.len
  have hlater : ∀ l : List (List Nat), l.length = P → ∀ j, P - 1 < j → l.getD j [] = [] := by
    intro l hl j hj
    rw [List.getD_eq_getElem?_getD, List.getElem?_eq_none (by omega)]; rfl
  have key := forEach_wp (fun p (l : List (List Nat)) => l.length = P ∧
      l.flatten = s.parts.flatten ++ p ∧ (∀ j, j + 1 < P → l.getD j [] = s.parts.getD j []) ∧
      (∃ t, l.getD (P - 1) [] = s.parts.getD (P - 1) [] ++ t) ∧
      (p = [] → l = s.parts))
    (f := fun x (l : List (List Nat)) =>
      if P = 0 then Res.ub else do
      let p ← rd l (P - 1)
      wr l (P - 1) (p ++ [x])) s.queue [] s.parts ⟨hl, by simp, fun _ _ => rfl, ⟨[], by simp⟩, fun _ => rfl⟩ ?_
  · refine wp_mono key ?_
    rintro l ⟨h1, h2, h3, h3', h4⟩
    rw [List.nil_append] at h2 h4
    refine forRange_wp' (fun k (l' : List (List Nat)) => l'.length = P ∧
      l'.flatten = s.parts.flatten ++ s.queue ++
        (List.range k).filter (fun x => decide (x ∉ s.parts.flatten ++ s.queue)) ∧
      (∀ j, j + 1 < P → l'.getD j [] = s.parts.getD j []) ∧
      (∃ t, l'.getD (P - 1) [] = s.parts.getD (P - 1) [] ++ t) ∧
      (s.cnt = g.n → l' = s.parts)) (Nat.zero_le _) ?_ ?_ (fun _ h => h)
    · refine ⟨h1, by simpa using h2, h3, h3', fun hc => h4 ?_⟩
      have := h.room
      exact List.eq_nil_of_length_eq_zero (by omega)
    · rintro k l' _ hk ⟨k1, k2, k3, ⟨t, k3'⟩, k4⟩
      have hvl := h.visLen
      rw [rd_getD false (by omega), ok_bind]
      split
      · rename_i hv
        have hnm : k ∉ s.parts.flatten ++ s.queue := by
          intro hm
          rw [(h.mem k hk).2 hm] at hv
          cases hv
        rw [if_neg (by omega), rd_getD [] (by omega), ok_bind, wr_eq (by omega), wp_ok]
        refine ⟨by simpa using k1, ?_, ?_, ?_, ?_⟩
        · rw [flatten_set_last _ _ _ (by omega) (hlater _ k1), k2, List.range_succ, List.filter_append,
            List.filter_cons_of_pos (by simpa using hnm), List.filter_nil]
          simp only [List.append_assoc]
        · intro j hj
          rw [getD_set, if_neg (by omega)]
          exact k3 j hj
        · rw [getD_set, if_pos ⟨rfl, by omega⟩, k3', List.append_assoc]
          exact ⟨_, rfl⟩
        · intro hc
          exfalso
          have hsub : (s.parts.flatten ++ s.queue) ⊆ (List.range g.n).erase k := by
            intro x hx
            rw [List.mem_erase_of_ne (by rintro rfl; exact hnm hx)]
            exact List.mem_range.2 (h.lt x hx)
          have := (h.disc.nodup.subperm hsub).length_le
          rw [List.length_append, ← h.cnt, List.length_erase_of_mem (List.mem_range.2 hk)] at this
          simp at this
          omega
      · rename_i hv
        rw [wp_ok]
        refine ⟨k1, ?_, k3, ⟨t, k3'⟩, k4⟩
        have hm : k ∈ s.parts.flatten ++ s.queue := (h.mem k hk).1 (by simpa using hv)
        rw [k2, List.range_succ, List.filter_append, List.filter_cons_of_neg (by rw [decide_eq_true_iff, not_not]; exact hm),
          List.filter_nil, List.append_nil]
  · rintro p x q l he ⟨h1, h2, h3, ⟨t, h3'⟩, -⟩
    rw [if_neg (by omega), rd_getD [] (by omega), ok_bind, wr_eq (by omega), wp_ok]
    refine ⟨by simpa using h1, ?_, ?_, ?_, by simp⟩
    · rw [flatten_set_last _ _ _ (by omega) (hlater _ h1), h2, List.append_assoc]
    · intro j hj
      rw [getD_set, if_neg (by omega)]
      exact h3 j hj
    · rw [getD_set, if_pos ⟨rfl, by omega⟩, h3', List.append_assoc]
      exact ⟨_, rfl⟩

/-- The parts are copied one after the other. -/
theorem flattenParts_wp (debug : Bool) {n P : Nat} {l : List (List Nat)} (hl : l.length = P)
    (hn : l.flatten.length = n) :
    wp (flattenParts debug n P l) (fun r => r.1.length = P + 1 ∧
      (∀ k, k ≤ P → r.1.getD k 0 = (l.take k).flatten.length) ∧ r.2 = l.flatten) := by
  unfold flattenParts
  refine forRange_wp' (fun j (s : List Nat × List Nat) => s.1.length = P + 1 ∧ s.2.length = n ∧
    (∀ k, k ≤ j → s.1.getD k 0 = (l.take k).flatten.length) ∧
    s.2.take (l.take j).flatten.length = (l.take j).flatten) (Nat.zero_le _) ?_ ?_ ?_
  · refine ⟨by simp, by simp, ?_, by simp⟩
    intro k hk
    obtain rfl : k = 0 := by omega
    dsimp only
    rw [getD_replicate _ _ _ _ (by omega)]; simp
  · rintro j ⟨ptr, nodes⟩ _ hj ⟨h1, h2, h3, h4⟩
    dsimp only at h1 h2 h3 h4
    dsimp only
    rw [rd_getD [] hj, ok_bind, rd_getD 0 (by omega), ok_bind, wr_eq (by omega), ok_bind, wp_bind,
      h3 j (Nat.le_refl _)]
    have hsz : (l.take j).flatten.length + (l.getD j []).length ≤ n := by
      rw [← List.length_append, ← Group.flatten_take_succ l hj, ← hn]
      conv_rhs => rw [← List.take_append_drop (j + 1) l, List.flatten_append, List.length_append]
      omega
    have key := forEach_wp (fun p (t : Nat × List Nat) => t.1 = (l.take j).flatten.length + p.length ∧
        t.2.length = n ∧ t.2.take t.1 = (l.take j).flatten ++ p)
      (f := fun x (t : Nat × List Nat) =>
        if debug = true ∧ ¬ t.1 < n then exn else do
        let nodes ← wr t.2 t.1 x
        ok (t.1 + 1, nodes)) (l.getD j []) [] ((l.take j).flatten.length, nodes)
        ⟨by simp, h2, by simpa using h4⟩ ?_
    · refine wp_mono key ?_
      rintro ⟨ip, nd⟩ ⟨k1, k2, k3⟩
      dsimp only at k1 k2 k3
      rw [List.nil_append] at k1 k3
      rw [wp_ok]
      dsimp only
      have hf := Group.flatten_take_succ l hj
      refine ⟨by simpa using h1, k2, ?_, ?_⟩
      · intro k hk
        rw [getD_set]
        by_cases hkj : k = j + 1
        · subst hkj
          rw [if_pos ⟨rfl, by omega⟩, hf, List.length_append]
        · rw [if_neg (by omega)]
          exact h3 k (by omega)
      · rw [hf, List.length_append, ← k1]
        exact k3
    · rintro p x q ⟨ip, nd⟩ he ⟨k1, k2, k3⟩
      rw [List.nil_append] at he
      dsimp only at k1 k2 k3
      have hlen : (l.getD j []).length = p.length + (q.length + 1) := by rw [he]; simp
      dsimp only
      rw [if_neg (by omega), wr_eq (by omega), ok_bind, wp_ok]
      dsimp only
      refine ⟨by rw [k1]; simp; omega, by simpa using k2, ?_⟩
      rw [List.take_add_one, List.take_set_of_le (Nat.le_refl _), k3, List.getElem?_set_self (by omega)]
      simp
  · rintro ⟨ptr, nodes⟩ ⟨h1, h2, h3, h4⟩
    dsimp only at h1 h2 h3 h4
    refine ⟨h1, by rw [← hl]; exact h3, ?_⟩
    dsimp only
    rw [List.take_of_length_le (Nat.le_refl _)] at h4
    rw [← h4, List.take_of_length_le (by omega)]

/-- What `partition_by_bfs` returns: the parts `l`, the discovery order `O` and the rest. -/
theorem byBfs_wp (A : Ops K) (debug : Bool) (hwf : g.WF) {weight : List K} (hw : weight.length = g.n) {P : Nat}
    (hP : 0 < P) {target : Option (List K)} (ht : ∀ t, target = some t → t.length = P) :
    wp (byBfs A debug g.n g.p g.i weight P target) (fun r => r.1 = [0, P] ∧
      ∃ l O : List (List Nat), ∃ o : List Nat, l.length = P ∧ r.2.1.length = P + 1 ∧
        (∀ k, k ≤ P → r.2.1.getD k 0 = (l.take k).flatten.length) ∧ r.2.2 = l.flatten ∧
        O.length = P ∧ g.BfsOrder o ∧ O.flatten <+: o ∧
        l.flatten = o ++ (List.range g.n).filter (fun x => decide (x ∉ o)) ∧ (∀ x ∈ o, x < g.n) ∧
        (∀ j, j + 1 < P → l.getD j [] = O.getD j []) ∧
        (∃ t, l.getD (P - 1) [] = O.getD (P - 1) [] ++ t) ∧
        (A.Total → ∀ j, j < P → Below A weight (goal A g.n weight P target j) (O.getD j [])) ∧
        (∀ j, j < P → A.lt (wsum A weight (O.getD j [])) (goal A g.n weight P target j) = false ∨
          (l = O ∧ ∀ k, j < k → O.getD k [] = []))) := by
  unfold byBfs
  rw [wp_bind]
  refine wp_mono (targets_wp A hw P ht) ?_
  rintro even ⟨he, hg⟩
  rw [wp_bind]
  have h0 : Outer A g P weight (goal A g.n weight P target) 0
      (⟨A.zero, [], List.replicate g.n false, 0, List.replicate P []⟩ : St K) := by
    have hfl : (List.replicate P ([] : List Nat)).flatten = [] := by
      rw [List.flatten_eq_nil_iff]; intro a ha; exact List.eq_of_mem_replicate ha
    have hgd : ∀ j, (List.replicate P ([] : List Nat)).getD j [] = [] := by
      intro j
      by_cases hj : j < P
      · rw [getD_replicate _ _ _ _ hj]
      · rw [List.getD_eq_getElem?_getD, List.getElem?_eq_none (by simpa using hj)]; rfl
    refine ⟨⟨by simp, by simp, fun j _ => hgd j, ?_, ?_, ?_, ?_⟩, .inl rfl, hgd 0, ?_, ?_⟩
    · intro x hx
      dsimp only
      rw [getD_replicate _ _ _ _ hx, hfl]; simp
    · dsimp only; rw [hfl]; simp
    · dsimp only; rw [hfl]; simp
    · dsimp only; rw [hfl]; exact Disc.nil
    · intro _ j hj; omega
    · intro j hj; omega
  have key := forRangeB_wp (lo := 0) (hi := P) (f := fun i (s : St K) =>
      if s.cnt < g.n then
        if debug = true ∧ ¬ s.queue.length < g.n then exn else do
        let e ← rd even i
        let s ← fillPart A g.n g.p g.i weight i e { s with c := A.zero }
        ok (.next s)
      else ok (.brk s))
    (fun i (s : St K) => Outer A g P weight (goal A g.n weight P target) i s)
    (fun (s : St K) => ∃ i, i ≤ P ∧ s.cnt = g.n ∧ Outer A g P weight (goal A g.n weight P target) i s)
    (Nat.zero_le _) h0 ?_
  · refine wp_mono key ?_
    intro r hr
    have hfin : ∀ s : St K, (∃ i, i ≤ P ∧ (i = P ∨ s.cnt = g.n) ∧
        Outer A g P weight (goal A g.n weight P target) i s) →
        wp (leftover g.n P s >>= fun l => flattenParts debug g.n P l >>= fun f => ok ([0, P], f.1, f.2))
        (fun r => r.1 = [0, P] ∧
      ∃ l O : List (List Nat), ∃ o : List Nat, l.length = P ∧ r.2.1.length = P + 1 ∧
        (∀ k, k ≤ P → r.2.1.getD k 0 = (l.take k).flatten.length) ∧ r.2.2 = l.flatten ∧
        O.length = P ∧ g.BfsOrder o ∧ O.flatten <+: o ∧
        l.flatten = o ++ (List.range g.n).filter (fun x => decide (x ∉ o)) ∧ (∀ x ∈ o, x < g.n) ∧
        (∀ j, j + 1 < P → l.getD j [] = O.getD j []) ∧
        (∃ t, l.getD (P - 1) [] = O.getD (P - 1) [] ++ t) ∧
        (A.Total → ∀ j, j < P → Below A weight (goal A g.n weight P target j) (O.getD j [])) ∧
        (∀ j, j < P → A.lt (wsum A weight (O.getD j [])) (goal A g.n weight P target j) = false ∨
          (l = O ∧ ∀ k, j < k → O.getD k [] = []))) := by
      rintro s ⟨i, hi, hend, hO⟩
      rw [wp_bind]
      refine wp_mono (leftover_wp hP hO.core) ?_
      rintro l ⟨h1, h2, h3, h4, h5⟩
      rw [wp_bind]
      have hlen : l.flatten.length = g.n := by
        have hp : l.flatten.Perm (List.range g.n) := by
          rw [h2, List.perm_ext_iff_of_nodup ?_ List.nodup_range]
          · intro x
            rw [List.mem_append, List.mem_filter, List.mem_range, decide_eq_true_iff]
            constructor
            · rintro (hx | hx)
              · exact hO.core.lt x hx
              · exact hx.1
            · intro hx
              by_cases hm : x ∈ s.parts.flatten ++ s.queue
              · exact .inl hm
              · exact .inr ⟨hx, hm⟩
          · rw [List.nodup_append]
            refine ⟨hO.core.disc.nodup, List.nodup_range.filter _, ?_⟩
            rintro a ha b hb rfl
            rw [List.mem_filter, decide_eq_true_iff] at hb
            exact hb.2 ha
        simpa using hp.length_eq
      refine wp_mono (flattenParts_wp debug h1 hlen) ?_
      rintro f ⟨f1, f2, f3⟩
      rw [wp_ok]
      refine ⟨rfl, l, s.parts, s.parts.flatten ++ s.queue, h1, f1, f2, f3, hO.core.len, hO.core.disc.order,
        List.prefix_append _ _, h2, hO.core.lt, h3, h4, ?_, ?_⟩
      · intro hT j hj
        by_cases hji : j < i
        · exact hO.below hT j hji
        · have : s.parts.getD j [] = [] := by
            by_cases hje : j = i
            · subst hje; exact hO.this
            · exact hO.core.later j (by omega)
          rw [this]
          exact Below.nil _ _ _
      · intro j hj
        by_cases hji : j < i
        · rcases hO.full j hji with hf | ⟨hf1, hf2⟩
          · exact .inl hf
          · exact .inr ⟨h5 hf1, hf2⟩
        · refine .inr ⟨h5 (hend.resolve_left (by omega)), ?_⟩
          intro k hk
          exact hO.core.later k (by omega)
    cases r with
    | next s =>
      rw [Ctl.post_next] at hr
      exact hfin s ⟨P, Nat.le_refl _, .inl rfl, hr⟩
    | brk s =>
      rw [Ctl.post_brk] at hr
      obtain ⟨i, hi, hc, hO⟩ := hr
      exact hfin s ⟨i, hi, .inr hc, hO⟩
  · intro i s _ hi hO
    split
    · rename_i hcnt
      have hroom := hO.core.room
      have hql : s.queue.length < g.n := by
        rcases hO.queue with h | h
        · rw [h]; simp; omega
        · omega
      rw [if_neg (by tauto), rd_getD A.zero (by omega), ok_bind, wp_bind, hg i hi]
      refine wp_mono (fillPart_wp A hwf hw hi (s := { s with c := A.zero })
        ⟨hO.core.visLen, hO.core.len, hO.core.later, hO.core.mem, hO.core.lt, hO.core.cnt, hO.core.disc⟩ rfl
        hO.this hO.queue) ?_
      rintro s' ⟨hF, hq', hend⟩
      rw [wp_ok, Ctl.post_next]
      refine ⟨⟨hF.core.visLen, hF.core.len, fun j hj => hF.core.later j (by omega), hF.core.mem, hF.core.lt,
        hF.core.cnt, hF.core.disc⟩, hq', hF.core.later _ (by omega), ?_, ?_⟩
      · intro hT j hj
        by_cases hji : j = i
        · subst hji; exact hF.below hT
        · rw [hF.other j hji]
          exact hO.below hT j (by omega)
      · intro j hj
        by_cases hji : j = i
        · subst hji
          rcases hend with h | h
          · exact .inl (by rw [← hF.wgt]; exact h)
          · exact .inr ⟨h, hF.core.later⟩
        · rw [hF.other j hji]
          rcases hO.full j (by omega) with h | ⟨h, -⟩
          · exact .inl h
          · omega
    · rw [wp_ok, Ctl.post_brk]
      exact ⟨i, by omega, by have := hO.core.room; omega, hO⟩

end Verif.PartW
