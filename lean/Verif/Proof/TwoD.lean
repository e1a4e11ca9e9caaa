import Verif.Proof.Final
import Mathlib.Data.List.Sort
import Mathlib.Data.List.Flatten

/-! # `twoDReordering` -/

namespace Verif.Final
open Res
open Verif.Group (lastPtr lastPtr_append back_eq)

/-- The iterations of row `r`, in storage order. -/
def rowIters (m : Csc) (r : Nat) : List Iter :=
  (List.range' (m.ptr r) (m.ptr (r + 1) - m.ptr r)).map fun k => ⟨r, k, m.i.getD k 0⟩

theorem mem_rowIters {m : Csc} {r : Nat} {e : Iter} :
    e ∈ rowIters m r ↔ e.i = r ∧ m.ptr r ≤ e.k ∧ e.k < m.ptr (r + 1) ∧ e.j = m.i.getD e.k 0 := by
  unfold rowIters
  rw [List.mem_map]
  constructor
  · rintro ⟨k, hk, rfl⟩
    rw [List.mem_range'_1] at hk
    exact ⟨rfl, hk.1, by show k < _; omega, rfl⟩
  · rintro ⟨h1, h2, h3, h4⟩
    refine ⟨e.k, by rw [List.mem_range'_1]; omega, ?_⟩
    cases e with | mk i k j => dsimp only at h1 h4 ⊢; rw [h1, h4]

/-! ### The unsorted iterations -/

/-- The iterations of the first `k` listed rows. -/
def unsorted (m : Csc) (s : Sched) (k : Nat) : List Iter := (s.nodes.take k).flatMap (rowIters m)

theorem unsorted_succ {m : Csc} {s : Sched} {k v : Nat} (h : s.nodes[k]? = some v) :
    unsorted m s (k + 1) = unsorted m s k ++ rowIters m v := by
  unfold unsorted
  rw [List.take_add_one, h]; simp

theorem unsorted_mono (m : Csc) (s : Sched) {a b : Nat} (h : a ≤ b) :
    (unsorted m s a).length ≤ (unsorted m s b).length := by
  unfold unsorted
  rw [show b = a + (b - a) by omega, List.take_add, List.flatMap_append, List.length_append]
  omega

/-- The array of the blocks that are sorted. -/
structure Blocks (groups : List Nat) (cnt : Nat) : Prop where
  ne : groups ≠ []
  sort : groups.Pairwise (· < ·)
  zero : 0 ∈ groups
  le : lastPtr groups ≤ cnt

theorem close_wp {t : TwoD} (h : Blocks t.groups t.cnt) : wp (close t) fun t' =>
    t'.iters = t.iters ∧ t'.cnt = t.cnt ∧ t'.tuple = t.tuple ∧ t'.prev = t.prev ∧
    Blocks t'.groups t.cnt ∧ lastPtr t'.groups = t.cnt ∧ (∀ x ∈ t.groups, x ∈ t'.groups) ∧
    (∀ x ∈ t'.groups, x ∈ t.groups ∨ x = t.cnt) := by
  unfold close
  rw [back_eq h.ne, ok_bind]
  split
  · next hne =>
    rw [wp_ok]
    refine ⟨rfl, rfl, rfl, rfl, ⟨by simp, ?_, by simp [h.zero], ?_⟩, lastPtr_append _ _, ?_, ?_⟩
    · rw [List.pairwise_append]
      refine ⟨h.sort, by simp, ?_⟩
      intro x hx y hy
      rw [List.mem_singleton] at hy
      have := sorted_le_last h.sort hx
      have := h.le
      omega
    · dsimp only; rw [lastPtr_append]
    · intro x hx; simp [hx]
    · intro x hx
      rw [List.mem_append, List.mem_singleton] at hx
      exact hx
  · next he =>
    rw [not_not] at he
    rw [wp_ok]
    exact ⟨rfl, rfl, rfl, rfl, h, he, fun _ h => h, fun _ h => .inl h⟩

theorem rowStep_wp {m : Csc} (hm : m.WF) {s : Sched} {k v : Nat} (hv : s.nodes[k]? = some v)
    (hvn : v < m.n) {t : TwoD} (hb : Blocks t.groups t.cnt) (hi : t.iters = unsorted m s k)
    (hc : t.cnt = t.iters.length) :
    wp (rowStep m.p m.i s.nodes k t) fun t' => t'.iters = unsorted m s (k + 1) ∧
      t'.cnt = t'.iters.length ∧ Blocks t'.groups t'.cnt ∧ t'.tuple = t.tuple ∧
      (∀ x ∈ t.groups, x ∈ t'.groups) ∧ t'.prev = v ∧
      (∀ x ∈ t'.groups, x ∈ t.groups ∨ (x = t.cnt ∧ (v : Int) ≠ t.prev + 1)) := by
  unfold rowStep
  rw [show rd s.nodes k = ok v by simp [rd, hv], ok_bind, wp_bind]
  have h1 : wp (if (v : Int) ≠ t.prev + 1 then close t else ok t) fun t' =>
      t'.iters = t.iters ∧ t'.cnt = t.cnt ∧ t'.tuple = t.tuple ∧ Blocks t'.groups t.cnt ∧
      (∀ x ∈ t.groups, x ∈ t'.groups) ∧
      (∀ x ∈ t'.groups, x ∈ t.groups ∨ (x = t.cnt ∧ (v : Int) ≠ t.prev + 1)) := by
    split
    · next hne =>
      refine wp_mono (close_wp hb) ?_
      rintro t' ⟨a, b, c, _, d, _, e, f⟩
      exact ⟨a, b, c, d, e, fun x hx => (f x hx).imp id fun h => ⟨h, hne⟩⟩
    · rw [wp_ok]; exact ⟨rfl, rfl, rfl, hb, fun _ h => h, fun _ h => .inl h⟩
  refine wp_mono h1 ?_
  rintro t1 ⟨e1, e2, e3, e4, e5, e6⟩
  have hle : m.ptr v ≤ m.ptr (v + 1) := hm.mono v hvn
  rw [hm.rd_p (by omega), ok_bind, hm.rd_p (by omega), ok_bind]
  refine forRange_wp' (fun c (t' : TwoD) => t'.iters = unsorted m s k ++
      (List.range' (m.ptr v) (c - m.ptr v)).map (fun k => ⟨v, k, m.i.getD k 0⟩) ∧
      t'.cnt = t'.iters.length ∧ t'.tuple = t.tuple ∧ t'.groups = t1.groups ∧ t.cnt ≤ t'.cnt ∧
      t'.prev = v) hle ?_ ?_ ?_
  · refine ⟨by simp [e1, hi], ?_, e3, rfl, le_of_eq e2.symm, rfl⟩
    dsimp only
    rw [e1, e2, hc]
  · rintro c t' c1 c2 ⟨a1, a2, a3, a4, a5, a6⟩
    have hcl : c < m.i.length := by
      have := hm.ptr_le (a := v + 1) (by omega)
      omega
    rw [rd_getD 0 hcl, ok_bind, wp_ok]
    refine ⟨?_, ?_, a3, a4, ?_, a6⟩
    · dsimp only
      rw [a1, show c + 1 - m.ptr v = (c - m.ptr v) + 1 by omega, List.range'_concat,
        List.map_append, ← List.append_assoc]
      simp only [List.map_cons, List.map_nil, Nat.one_mul]
      rw [show m.ptr v + (c - m.ptr v) = c by omega]
    · dsimp only
      rw [List.length_append, a2]; rfl
    · dsimp only; omega
  · rintro t' ⟨a1, a2, a3, a4, a5, a6⟩
    refine ⟨by rw [unsorted_succ hv]; exact a1, a2, ?_, a3, by rw [a4]; exact e5, a6, by rw [a4]; exact e6⟩
    rw [a4]
    exact ⟨e4.ne, e4.sort, e4.zero, le_trans e4.le a5⟩

/-- A run of consecutive rows ends before position `k`. -/
def Break (s : Sched) (parts k : Nat) : Prop :=
  (∃ q, q ≤ parts ∧ k = s.partPtr.getD q 0) ∨ s.nodes.getD k 0 ≠ s.nodes.getD (k - 1) 0 + 1

/-- The state after `q` parts. -/
structure After (m : Csc) (s : Sched) (parts : Nat) (tuple0 : List Nat) (q : Nat) (t : TwoD) : Prop where
  iters : t.iters = unsorted m s (s.partPtr.getD q 0)
  cnt : t.cnt = t.iters.length
  blocks : Blocks t.groups t.cnt
  last : lastPtr t.groups = t.cnt
  tuple : t.tuple = tuple0 ++ (List.range (q + 1)).map
    fun q' => (unsorted m s (s.partPtr.getD q' 0)).length
  cuts : ∀ q', q' ≤ q → (unsorted m s (s.partPtr.getD q' 0)).length ∈ t.groups
  brk : ∀ x ∈ t.groups, ∃ k, x = (unsorted m s k).length ∧ Break s parts k

theorem partStep_wp {m : Csc} (hm : m.WF) {s : Sched} {parts : Nat} (h2 : PtrOk s.partPtr parts m.n)
    (hlen : m.n ≤ s.nodes.length) (hmem : ∀ k v, k < m.n → s.nodes[k]? = some v → v < m.n)
    {tuple0 : List Nat} {q : Nat} (hq : q < parts) {t : TwoD} (h : After m s parts tuple0 q t) :
    wp (partStep m.p m.i s q t) (After m s parts tuple0 (q + 1)) := by
  unfold partStep
  have hpl := h2.len
  have hqn := h2.dle (b := q + 1) hq
  rw [rd_getD 0 (by omega), ok_bind, rd_getD 0 (by omega), ok_bind, wp_bind]
  refine forRange_wp' (fun k (t' : TwoD) => t'.iters = unsorted m s k ∧ t'.cnt = t'.iters.length ∧
    Blocks t'.groups t'.cnt ∧ t'.tuple = t.tuple ∧ (∀ x ∈ t.groups, x ∈ t'.groups) ∧
    (s.partPtr.getD q 0 < k → t'.prev = (s.nodes.getD (k - 1) 0 : Int)) ∧
    ∀ x ∈ t'.groups, ∃ k, x = (unsorted m s k).length ∧ Break s parts k) (h2.dmono hq)
    ⟨h.iters, h.cnt, h.blocks, rfl, fun _ h => h, fun h => absurd h (lt_irrefl _), h.brk⟩ ?_ ?_
  · rintro k t' k1 k2 ⟨a1, a2, a3, a4, a5, a6, a7⟩
    have hv := getElem?_getD (l := s.nodes) (j := k) 0 (by omega)
    refine wp_mono (rowStep_wp hm hv (hmem k _ (by omega) hv) a3 a1 a2) ?_
    rintro t'' ⟨b1, b2, b3, b4, b5, b6, b7⟩
    refine ⟨b1, b2, b3, b4.trans a4, fun x hx => b5 x (a5 x hx), fun _ => by rw [b6]; rfl, ?_⟩
    intro x hx
    rcases b7 x hx with hx | ⟨hx, hne⟩
    · exact a7 x hx
    · refine ⟨k, by rw [hx, a2, a1], ?_⟩
      by_cases hk : s.partPtr.getD q 0 < k
      · right
        rw [a6 hk] at hne
        intro he
        rw [he] at hne
        exact hne (by push_cast; rfl)
      · left
        exact ⟨q, by omega, by omega⟩
  · rintro t' ⟨a1, a2, a3, a4, a5, a6, a7⟩
    rw [wp_bind]
    refine wp_mono (close_wp a3) ?_
    rintro t'' ⟨b1, b2, b3, _, b4, b5, b6, b7⟩
    rw [wp_ok]
    refine ⟨b1.trans a1, ?_, ?_, ?_, ?_, ?_, ?_⟩
    · dsimp only; rw [b2, a2, b1]
    · dsimp only; rw [b2]; exact b4
    · dsimp only; rw [b2]; exact b5
    · dsimp only
      rw [b3, a4, h.tuple, List.range_succ (n := q + 1), List.map_append, List.append_assoc, b2, a2, a1]
      rfl
    · intro q' hq'
      rcases Nat.lt_or_ge q q' with h3 | h3
      · have : q' = q + 1 := by omega
        subst this
        dsimp only
        rw [← a1, ← a2, ← b5]
        unfold lastPtr
        have := List.length_pos_of_ne_nil b4.ne
        rw [List.getD_eq_getElem?_getD, List.getElem?_eq_getElem (by omega)]
        exact List.getElem_mem _
      · exact b6 _ (a5 _ (h.cuts q' h3))
    · intro x hx
      rcases b7 x hx with hx | hx
      · exact a7 x hx
      · exact ⟨_, by rw [hx, a2, a1], .inl ⟨q + 1, by omega, rfl⟩⟩

theorem unpack_wp {m : Csc} (hm : m.WF) {s : Sched} {parts : Nat}
    (h1 : PtrOk s.levelPtr s.levels parts) (h2 : PtrOk s.partPtr parts m.n)
    (hlen : m.n ≤ s.nodes.length) (hmem : ∀ k v, k < m.n → s.nodes[k]? = some v → v < m.n)
    (tuple0 : List Nat) :
    wp (forRange 0 s.levels (fun i1 t => do
      let lo ← rd s.levelPtr i1
      let hi ← rd s.levelPtr (i1 + 1)
      forRange lo hi (partStep m.p m.i s) t) ⟨[], 0, [0], tuple0 ++ [0], 0⟩)
      (After m s parts tuple0 parts) := by
  rw [forRange_blocks h1]
  refine forRange_wp' (fun q t => After m s parts tuple0 q t) (Nat.zero_le _) ?_ ?_ (fun _ h => h)
  · have h0 : unsorted m s (s.partPtr.getD 0 0) = [] := by rw [h2.d0]; simp [unsorted]
    refine ⟨h0.symm, rfl, ⟨by simp, by simp, by simp, le_refl _⟩, rfl, ?_, ?_, ?_⟩
    · show _ = tuple0 ++ [(unsorted m s (s.partPtr.getD 0 0)).length]
      rw [h0]; rfl
    · intro q' hq'
      have : q' = 0 := by omega
      subst this
      rw [h0]; simp
    · intro x hx
      rw [List.mem_singleton] at hx
      exact ⟨s.partPtr.getD 0 0, by rw [h0, hx]; rfl, .inl ⟨0, Nat.zero_le _, rfl⟩⟩
  · intro q t _ hq h
    exact partStep_wp hm h2 hlen hmem hq h

/-! ### The sorted blocks -/

def sortJ (l : List Iter) : List Iter := l.insertionSort (fun a b => a.j ≤ b.j)

/-- The first `b` blocks, each sorted. -/
def sortedBlocks (U : List Iter) (gr : List Nat) (b : Nat) : List Iter :=
  (List.range b).flatMap fun c => sortJ (slice U (gr.getD c 0) (gr.getD (c + 1) 0))

theorem sortedBlocks_succ (U : List Iter) (gr : List Nat) (b : Nat) :
    sortedBlocks U gr (b + 1) =
      sortedBlocks U gr b ++ sortJ (slice U (gr.getD b 0) (gr.getD (b + 1) 0)) := by
  unfold sortedBlocks
  rw [List.range_succ, List.flatMap_append]; simp

theorem sortJ_perm (l : List Iter) : (sortJ l).Perm l := List.perm_insertionSort _ _

theorem take_slice (U : List Iter) {a b : Nat} (h : a ≤ b) : U.take b = U.take a ++ slice U a b := by
  unfold slice
  rw [show b = a + (b - a) by omega, List.take_add]; simp

theorem sortedBlocks_perm {U : List Iter} {gr : List Nat} {B : Nat} (h : PtrOk gr B U.length) :
    ∀ b, b ≤ B → (sortedBlocks U gr b).Perm (U.take (gr.getD b 0))
  | 0, _ => by rw [h.d0]; simp [sortedBlocks]
  | b + 1, hb => by
    rw [sortedBlocks_succ, take_slice U (h.dmono (by omega))]
    exact (sortedBlocks_perm h b (by omega)).append (sortJ_perm _)

theorem sortedBlocks_length {U : List Iter} {gr : List Nat} {B : Nat} (h : PtrOk gr B U.length)
    {b : Nat} (hb : b ≤ B) : (sortedBlocks U gr b).length = gr.getD b 0 := by
  rw [(sortedBlocks_perm h b hb).length_eq, List.length_take]
  have := h.dle hb
  omega

/-- Two iterations that are not inverted by their columns keep their order. -/
theorem sortedBlocks_pair {U : List Iter} {gr : List Nat} {B : Nat} (h : PtrOk gr B U.length)
    {e e' : Iter} (hj : e.j ≤ e'.j) : ∀ b, b ≤ B → [e, e'].Sublist (U.take (gr.getD b 0)) →
      [e, e'].Sublist (sortedBlocks U gr b)
  | 0, _, hs => by rw [h.d0] at hs; simp at hs
  | b + 1, hb, hs => by
    rw [take_slice U (h.dmono (show b < B by omega)), List.sublist_append_iff] at hs
    obtain ⟨l1, l2, hl, hs1, hs2⟩ := hs
    rw [sortedBlocks_succ]
    match l1, hl, hs1 with
    | [], hl, _ =>
      rw [List.nil_append] at hl
      subst hl
      exact (List.pair_sublist_insertionSort (r := fun a b : Iter => a.j ≤ b.j) hj hs2).trans (List.sublist_append_right _ _)
    | [x], hl, hs1 =>
      have hx : x = e := by simpa using (List.cons.inj hl).1.symm
      have hy : l2 = [e'] := by simpa using (List.cons.inj hl).2.symm
      subst hx hy
      have m1 : x ∈ sortedBlocks U gr b :=
        (sortedBlocks_perm h b (by omega)).mem_iff.2 (List.singleton_sublist.1 hs1)
      have m2 : e' ∈ sortJ (slice U (gr.getD b 0) (gr.getD (b + 1) 0)) :=
        (sortJ_perm _).mem_iff.2 (List.singleton_sublist.1 hs2)
      exact (List.singleton_sublist.2 m1).append (List.singleton_sublist.2 m2)
    | [x, y], hl, hs1 =>
      have hy : l2 = [] := by
        have := congrArg List.length hl
        simp at this; exact this
      subst hy
      rw [List.append_nil] at hl
      rw [← hl] at hs1
      exact (sortedBlocks_pair h hj b (by omega) hs1).trans (List.sublist_append_left _ _)
    | x :: y :: z :: l, hl, _ =>
      have := congrArg List.length hl
      simp at this

theorem sortLoop_wp {U : List Iter} {gr : List Nat} {B : Nat} (h : PtrOk gr B U.length) :
    wp (forRange 0 B (fun g l => do
      let lo ← rd gr g
      let hi ← rd gr (g + 1)
      sortIters l lo hi) U) (fun l => l = sortedBlocks U gr B) := by
  have hlen := h.len
  refine forRange_wp' (fun b l => l = sortedBlocks U gr b ++ U.drop (gr.getD b 0)) (Nat.zero_le _)
    (by rw [h.d0]; simp [sortedBlocks]) ?_ ?_
  · rintro b l _ hb rfl
    have hle := h.dmono hb
    have hUl := h.dle (b := b + 1) hb
    have hbl := sortedBlocks_length h (le_of_lt hb)
    rw [rd_getD 0 (by omega), ok_bind, rd_getD 0 (by omega), ok_bind]
    unfold sortIters
    rw [if_pos ⟨hle, by rw [List.length_append, hbl, List.length_drop]; omega⟩, wp_ok, sortedBlocks_succ]
    have d1 : (sortedBlocks U gr b ++ U.drop (gr.getD b 0)).take (gr.getD b 0) = sortedBlocks U gr b := by
      rw [← hbl, List.take_left']; rfl
    have d2 : (sortedBlocks U gr b ++ U.drop (gr.getD b 0)).drop (gr.getD b 0) = U.drop (gr.getD b 0) :=
      List.drop_left' hbl
    have d3 : (sortedBlocks U gr b ++ U.drop (gr.getD b 0)).drop (gr.getD (b + 1) 0) =
        U.drop (gr.getD (b + 1) 0) := by
      rw [show gr.getD (b + 1) 0 = gr.getD b 0 + (gr.getD (b + 1) 0 - gr.getD b 0) by omega,
        ← List.drop_drop, d2, List.drop_drop]
    rw [d1, d2, d3]
    rfl
  · rintro l rfl
    rw [h.dlast]; simp

/-- Between two boundaries the sorted list is a permutation of the unsorted one. -/
theorem slice_sortedBlocks {U : List Iter} {gr : List Nat} {B : Nat} (h : PtrOk gr B U.length)
    {a b : Nat} (hab : a ≤ b) (hb : b ≤ B) :
    (slice (sortedBlocks U gr B) (gr.getD a 0) (gr.getD b 0)).Perm
      (slice U (gr.getD a 0) (gr.getD b 0)) := by
  have htake : ∀ c, c ≤ B → (sortedBlocks U gr B).take (gr.getD c 0) = sortedBlocks U gr c := by
    intro c hc
    have : sortedBlocks U gr B = sortedBlocks U gr c ++
        (List.range' c (B - c)).flatMap fun c =>
          sortJ (slice U (gr.getD c 0) (gr.getD (c + 1) 0)) := by
      unfold sortedBlocks
      have hr : List.range B = List.range c ++ List.range' c (B - c) := by
        rw [List.range_eq_range', List.range_eq_range']
        have := List.range'_append_1 (s := 0) (m := c) (n := B - c)
        rw [Nat.zero_add] at this
        rw [this]; congr 1; omega
      rw [hr, List.flatMap_append]
    rw [this, List.take_append_of_le_length (by rw [sortedBlocks_length h hc]),
      List.take_of_length_le (by rw [sortedBlocks_length h hc])]
  have hm := h.dmono_le hab hb
  have e1 := take_slice (sortedBlocks U gr B) hm
  have e2 := take_slice U hm
  have p1 := sortedBlocks_perm h a (by omega)
  have p2 := sortedBlocks_perm h b hb
  rw [← htake b hb, e1, htake a (by omega), e2] at p2
  exact (List.perm_append_left_iff _).1 ((p1.append_right _).symm.trans p2)

theorem take_sortedBlocks {U : List Iter} {gr : List Nat} {B : Nat} (h : PtrOk gr B U.length) {c : Nat}
    (hc : c ≤ B) : (sortedBlocks U gr B).take (gr.getD c 0) = sortedBlocks U gr c := by
  have : sortedBlocks U gr B = sortedBlocks U gr c ++
      (List.range' c (B - c)).flatMap fun c =>
        sortJ (slice U (gr.getD c 0) (gr.getD (c + 1) 0)) := by
    unfold sortedBlocks
    have hr : List.range B = List.range c ++ List.range' c (B - c) := by
      rw [List.range_eq_range', List.range_eq_range']
      have := List.range'_append_1 (s := 0) (m := c) (n := B - c)
      rw [Nat.zero_add] at this
      rw [this]; congr 1; omega
    rw [hr, List.flatMap_append]
  rw [this, List.take_append_of_le_length (by rw [sortedBlocks_length h hc]),
    List.take_of_length_le (by rw [sortedBlocks_length h hc])]

/-- One block of the sorted list. -/
theorem slice_block {U : List Iter} {gr : List Nat} {B : Nat} (h : PtrOk gr B U.length) {c : Nat}
    (hc : c < B) : slice (sortedBlocks U gr B) (gr.getD c 0) (gr.getD (c + 1) 0) =
      sortJ (slice U (gr.getD c 0) (gr.getD (c + 1) 0)) := by
  have e1 := take_slice (sortedBlocks U gr B) (h.dmono hc)
  rw [take_sortedBlocks h (by omega), take_sortedBlocks h (by omega), sortedBlocks_succ] at e1
  exact (List.append_cancel_left e1).symm

theorem sortJ_sorted (l : List Iter) : (sortJ l).Pairwise fun a b => a.j ≤ b.j := by
  have ht : Std.Total (fun a b : Iter => a.j ≤ b.j) := ⟨fun a b => Nat.le_total a.j b.j⟩
  have hr : IsTrans Iter (fun a b : Iter => a.j ≤ b.j) := ⟨fun _ _ _ h1 h2 => Nat.le_trans h1 h2⟩
  exact List.pairwise_insertionSort _ l

/-- Positions of `unsorted` by rows. -/
theorem unsorted_get {m : Csc} {s : Sched} {N x : Nat} {e : Iter} (hN : N ≤ s.nodes.length)
    (hx : (unsorted m s N)[x]? = some e) : ∃ a, a < N ∧ (unsorted m s a).length ≤ x ∧
      x < (unsorted m s (a + 1)).length ∧ s.nodes[a]? = some e.i := by
  induction N with
  | zero => simp [unsorted] at hx
  | succ N ih =>
    have hv := getElem?_getD (l := s.nodes) (j := N) 0 (by omega)
    rcases Nat.lt_or_ge x (unsorted m s N).length with h | h
    · rw [unsorted_succ hv, List.getElem?_append_left h] at hx
      obtain ⟨a, a1, a2⟩ := ih (by omega) hx
      exact ⟨a, by omega, a2⟩
    · have hl : x < (unsorted m s (N + 1)).length := by
        by_contra hc
        rw [List.getElem?_eq_none (by omega)] at hx; cases hx
      rw [unsorted_succ hv, List.getElem?_append_right h] at hx
      have he := (mem_rowIters.1 (List.mem_of_getElem? hx)).1
      exact ⟨N, by omega, h, hl, by rw [hv, he]⟩

end Verif.Final
