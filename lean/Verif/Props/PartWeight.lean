import Verif.Proof.PartWeight
import Verif.Spec.Sched
import Mathlib.Algebra.Order.Field.Basic
import Mathlib.Algebra.Order.Ring.Rat
import Mathlib.Algebra.Order.BigOperators.Group.List
import Mathlib.Data.Rat.Floor
import Mathlib.Tactic.Linarith

/-!
# C89: partition by weight and by breadth-first search

`partition_by_weight` and `partition_by_bfs` (utils/utils.cpp 57-160).  Vocabulary: `Csc.BfsOrder`
(Verif/Spec/Search.lean), `wsum`, `Below`, `goal`, `partOf` (Verif/Spec/PartWeight.lean), `PtrOk`
(Verif/Spec/Sched.lean).
-/

namespace Verif.PartW
open Res Csc Hdagg

variable {K : Type} {g : Csc}

theorem ptrOk_of_take {l : List (List Nat)} {ptr : List Nat} {P n : Nat} (hl : l.length = P)
    (h1 : ptr.length = P + 1) (h2 : ∀ k, k ≤ P → ptr.getD k 0 = (l.take k).flatten.length)
    (hn : l.flatten.length = n) : PtrOk ptr P n := by
  have hg : ∀ k, k ≤ P → ptr[k]? = some (l.take k).flatten.length := by
    intro k hk
    rw [getElem?_getD 0 (by omega), h2 k hk]
  refine ⟨by rw [hg 0 (by omega)]; simp, ?_, ?_⟩
  · rw [hg P (Nat.le_refl _), ← hn, ← hl, List.take_length]
  · intro b hb lo hi hlo hhi
    rw [hg b (by omega)] at hlo
    rw [hg (b + 1) (by omega)] at hhi
    cases hlo
    cases hhi
    rw [Group.flatten_take_succ l (by omega), List.length_append]
    omega

theorem perm_range_of {o : List Nat} {n : Nat} (hn : o.Nodup) (hlt : ∀ x ∈ o, x < n) :
    (o ++ (List.range n).filter (fun x => decide (x ∉ o))).Perm (List.range n) := by
  rw [List.perm_ext_iff_of_nodup ?_ List.nodup_range]
  · intro x
    rw [List.mem_append, List.mem_filter, List.mem_range, decide_eq_true_iff]
    constructor
    · rintro (hx | hx)
      · exact hlt x hx
      · exact hx.1
    · intro hx
      by_cases hm : x ∈ o
      · exact .inl hm
      · exact .inr ⟨hx, hm⟩
  · rw [List.nodup_append]
    refine ⟨hn, List.nodup_range.filter _, ?_⟩
    rintro a ha b hb rfl
    rw [List.mem_filter, decide_eq_true_iff] at hb
    exact hb.2 ha

/-- **C89** `partition_by_bfs`, for every graph, all weights, any arithmetic and at least one part:
it ends without an out-of-bounds access or a failed assertion; one level with all parts; the parts
cover every node exactly once; the nodes are listed in the order of a breadth-first search, after which come, in
increasing order, the nodes the search did not discover; and if there are such nodes, every part has reached its target. -/
theorem C89_bfs_partition (A : Ops K) (debug : Bool) (hwf : g.WF) {weight : List K}
    (hw : weight.length = g.n) {P : Nat} (hP : 0 < P) {target : Option (List K)}
    (ht : ∀ t, target = some t → t.length = P) :
    ∃ ptr nodes, byBfs A debug g.n g.p g.i weight P target = ok ([0, P], ptr, nodes) ∧
      PtrOk ptr P g.n ∧ nodes.Perm (List.range g.n) ∧
      ∃ o rest, nodes = o ++ rest ∧ g.BfsOrder o ∧ rest.Pairwise (· < ·) ∧
        (rest ≠ [] → ∀ j, j < P → ∃ t, t <+: partOf ptr nodes j ∧
          A.lt (wsum A weight t) (goal A g.n weight P target j) = false) := by
  obtain ⟨r, hr, hr1, l, O, o, h1, h2, h3, h4, h5, h6, h7, h8, h9, h10, h11, h12, h13⟩ :=
    wp_iff.1 (byBfs_wp A debug hwf hw hP ht)
  have hp := perm_range_of h6.nodup h9
  have hlen : l.flatten.length = g.n := by rw [h8]; simpa using hp.length_eq
  obtain ⟨r1, ptr, nodes⟩ := r
  dsimp only at hr1 h2 h3 h4
  subst hr1 h4
  refine ⟨ptr, l.flatten, hr, ptrOk_of_take h1 h2 h3 hlen, h8 ▸ hp, o, _, h8, h6,
    List.Pairwise.filter _ List.pairwise_lt_range, ?_⟩
  intro hrest j hj
  have hpart : partOf ptr l.flatten j = l.getD j [] := by
    have := Group.slice_flatten l (k := j) (by omega)
    rw [← this, partOf, h3 j (by omega), h3 (j + 1) (by omega)]
    rfl
  rw [hpart]
  rcases h13 j hj with hf | ⟨hf, -⟩
  · refine ⟨O.getD j [], ?_, hf⟩
    by_cases hjP : j + 1 < P
    · rw [h10 j hjP]
    · obtain rfl : j = P - 1 := by omega
      obtain ⟨t, h11⟩ := h11
      rw [h11]
      exact List.prefix_append _ _
  · exfalso
    rw [← hf] at h7
    rw [h8] at h7
    have := h7.length_le
    rw [List.length_append] at this
    exact hrest (List.eq_nil_of_length_eq_zero (by omega))

/-- **C89** The parts are filled one after the other: with comparisons of a total order, a part other than the last
gets nodes exactly until its target is reached, and if it does not reach it then no node is left for
the later parts. -/
theorem C89_bfs_greedy (A : Ops K) (hT : A.Total) (debug : Bool) (hwf : g.WF) {weight : List K}
    (hw : weight.length = g.n) {P : Nat} {target : Option (List K)}
    (ht : ∀ t, target = some t → t.length = P) {ptr nodes : List Nat}
    (hr : byBfs A debug g.n g.p g.i weight P target = ok ([0, P], ptr, nodes)) {j : Nat} (hj : j + 1 < P) :
    Below A weight (goal A g.n weight P target j) (partOf ptr nodes j) ∧
      (A.lt (wsum A weight (partOf ptr nodes j)) (goal A g.n weight P target j) = false ∨
        ∀ k, j < k → k < P → partOf ptr nodes k = []) := by
  obtain ⟨r, hr', hr1, l, O, o, h1, h2, h3, h4, h5, h6, h7, h8, h9, h10, h11, h12, h13⟩ :=
    wp_iff.1 (byBfs_wp A debug hwf hw (show 0 < P by omega) ht)
  rw [hr] at hr'
  obtain rfl := Res.ok.inj hr'
  dsimp only at h2 h3 h4
  subst h4
  have hpart : ∀ j, j < P → partOf ptr l.flatten j = l.getD j [] := by
    intro j hj
    have := Group.slice_flatten l (k := j) (by omega)
    rw [← this, partOf, h3 j (by omega), h3 (j + 1) (by omega)]
    rfl
  rw [hpart j (by omega), h10 j hj]
  refine ⟨h12 hT j (by omega), ?_⟩
  rcases h13 j (by omega) with hf | ⟨hf1, hf2⟩
  · exact .inl hf
  · refine .inr fun k hk hkP => ?_
    rw [hpart k hkP, hf1]
    exact hf2 k hk

/-- **C89** Without parts, `partition_by_bfs` indexes `set_temp[-1]` for every graph with a node. -/
theorem C89_bfs_no_parts_ub (A : Ops K) (debug : Bool) {n : Nat} (hn : 0 < n) (Gp Gi : List Nat) (weight : List K)
    (hw : weight.length = n) (target : Option (List K)) (ht : ∀ t, target = some t → t.length = 0) :
    byBfs A debug n Gp Gi weight 0 target = ub := by
  obtain ⟨e, he, -⟩ := wp_iff.1 (targets_wp A hw 0 ht)
  obtain ⟨n, rfl⟩ : ∃ m, n = m + 1 := ⟨n - 1, by omega⟩
  unfold byBfs
  rw [he, ok_bind]
  rfl

/-- **C89** `partition_by_weight`, for every list of nodes, all weights and any arithmetic: it ends
without an out-of-bounds access; the indices start at 0, do not decrease and do not exceed the number of nodes; each part gets
nodes exactly until its target is reached or no node is left. -/
theorem C89_weight_partition (A : Ops K) {n : Nat} {set : List Nat} {weight : List K} (hw : weight.length = n)
    (hset : set.length = n) (hs : ∀ x ∈ set, x < n) (parts : Nat) {target : Option (List K)}
    (ht : ∀ t, target = some t → t.length = parts) :
    ∃ ind, byWeight A n set weight parts target = ok ind ∧ ind.length = parts + 1 ∧ ind.getD 0 0 = 0 ∧
      ∀ j, j < parts → ind.getD j 0 ≤ ind.getD (j + 1) 0 ∧ ind.getD (j + 1) 0 ≤ n ∧
        Below A weight (goal A n weight parts target j) (partOf ind set j) ∧
        (A.lt (wsum A weight (partOf ind set j)) (goal A n weight parts target j) = false ∨
          ind.getD (j + 1) 0 = n) := by
  obtain ⟨r, hr, h⟩ := wp_iff.1 (byWeight_wp A hw hset hs parts ht)
  exact ⟨r, hr, h⟩

section Exact

variable [Field K] [LinearOrder K] [IsStrictOrderedRing K]

omit [IsStrictOrderedRing K] in
theorem wsum_eq_sum {A : Ops K} (hA : A.Exact) (weight : List K) (l : List Nat) :
    wsum A weight l = (l.map (fun x => weight.getD x 0)).sum := by
  have : ∀ (l : List Nat) (a : K), l.foldl (fun a x => A.add a (weight.getD x A.zero)) a
      = a + (l.map (fun x => weight.getD x 0)).sum := by
    intro l
    induction l with
    | nil => intro a; simp
    | cons x l ih =>
      intro a
      rw [List.foldl_cons, ih, hA.add, hA.zero, List.map_cons, List.sum_cons, add_assoc]
  rw [wsum, this, hA.zero, zero_add]

theorem sum_take_parts {A : Ops K} (hA : A.Exact) (weight : List K) (set ind : List Nat) (e : K) (h0 : ind.getD 0 0 = 0)
    (m : Nat) (hmono : ∀ j, j < m → ind.getD j 0 ≤ ind.getD (j + 1) 0)
    (hfull : ∀ j, j < m → e ≤ wsum A weight (partOf ind set j)) :
    e * (m : K) ≤ ((set.take (ind.getD m 0)).map (fun x => weight.getD x 0)).sum := by
  induction m with
  | zero => rw [h0]; simp
  | succ m ih =>
    have h1 := ih (fun j hj => hmono j (by omega)) (fun j hj => hfull j (by omega))
    have h2 := hfull m (by omega)
    have h3 := hmono m (by omega)
    have : set.take (ind.getD (m + 1) 0) = set.take (ind.getD m 0) ++ partOf ind set m := by
      rw [partOf, ← List.take_add]
      congr 1; omega
    rw [this, List.map_append, List.sum_append, ← wsum_eq_sum hA weight (partOf ind set m)]
    push_cast
    rw [mul_add, mul_one]
    exact add_le_add h1 h2

/-- **C89** In exact arithmetic, with positive weights, the common target and at least one part, no
node is lost: the last index is the number of nodes. -/
theorem C89_weight_complete {A : Ops K} (hA : A.Exact) {n : Nat} {set : List Nat} {weight : List K}
    (hw : weight.length = n) (hset : set.Perm (List.range n)) (hpos : ∀ w ∈ weight, 0 < w) {parts : Nat}
    (hp : 0 < parts) :
    ∃ ind, byWeight A n set weight parts none = ok ind ∧ ind.getD parts 0 = n := by
  have hlen : set.length = n := by simpa using hset.length_eq
  have hlt : ∀ x ∈ set, x < n := fun x hx => List.mem_range.1 (hset.mem_iff.1 hx)
  obtain ⟨ind, hr, h1, h2, h3⟩ := C89_weight_partition A hw hlen hlt parts (target := none)
    (by intro t ht; cases ht)
  refine ⟨ind, hr, ?_⟩
  have hle : ∀ j, 0 < j → j ≤ parts → ind.getD j 0 ≤ n := by
    intro j hj hjp
    have := (h3 (j - 1) (by omega)).2.1
    rwa [show j - 1 + 1 = j by omega] at this
  by_contra hne
  have hm : ∀ d, d < parts → ind.getD (parts - d) 0 ≤ ind.getD parts 0 := by
    intro d
    induction d with
    | zero => intro _; exact Nat.le_refl _
    | succ d ih =>
      intro hd
      have := (h3 (parts - (d + 1)) (by omega)).1
      rw [show parts - (d + 1) + 1 = parts - d by omega] at this
      exact le_trans this (ih (by omega))
  have hlast : ind.getD parts 0 < n := by have := hle parts hp (Nat.le_refl _); omega
  have hfull : ∀ j, j < parts → A.even (wsum A weight (List.range n)) parts ≤ wsum A weight (partOf ind set j) := by
    intro j hj
    rcases (h3 j hj).2.2.2 with h | h
    · rw [hA.lt, decide_eq_false_iff_not, not_lt] at h
      exact h
    · have := hm (parts - (j + 1)) (by omega)
      rw [show parts - (parts - (j + 1)) = j + 1 by omega] at this
      omega
  have hs := sum_take_parts hA weight set ind _ h2 parts (fun j hj => (h3 j hj).1) hfull
  have he := hA.even (wsum A weight (List.range n)) parts hp
  have hsum : wsum A weight (List.range n) = (set.map (fun x => weight.getD x 0)).sum := by
    rw [wsum_eq_sum hA]
    exact ((hset.map _).sum_eq).symm
  have hsplit : (set.map (fun x => weight.getD x 0)).sum
      = ((set.take (ind.getD parts 0)).map (fun x => weight.getD x 0)).sum
        + ((set.drop (ind.getD parts 0)).map (fun x => weight.getD x 0)).sum := by
    conv_lhs => rw [← List.take_append_drop (ind.getD parts 0) set]
    rw [List.map_append, List.sum_append]
  have hrest : 0 < ((set.drop (ind.getD parts 0)).map (fun x => weight.getD x 0)).sum := by
    refine List.sum_pos _ ?_ ?_
    · intro y hy
      obtain ⟨x, hx, rfl⟩ := List.mem_map.1 hy
      have hxn := hlt x (List.mem_of_mem_drop hx)
      exact hpos _ (List.mem_of_getElem? (getElem?_getD 0 (show x < weight.length by omega)))
    · intro hc
      rw [List.map_eq_nil_iff, List.drop_eq_nil_iff] at hc
      omega
  rw [hsum, hsplit] at he
  rw [hsum] at hs
  rw [hsplit] at hs
  linarith

omit [IsStrictOrderedRing K] in
/-- **C89** With all weights zero and the common target 0, no node is assigned to any part. -/
theorem C89_weight_zero_loses {A : Ops K} (hA : A.Exact) {n : Nat} {set : List Nat} (hset : set.length = n)
    (hs : ∀ x ∈ set, x < n) (parts : Nat) (he : A.even 0 parts = 0) :
    ∃ ind, byWeight A n set (List.replicate n 0) parts none = ok ind ∧ ∀ j, j ≤ parts → ind.getD j 0 = 0 := by
  obtain ⟨ind, hr, h1, h2, h3⟩ := C89_weight_partition A (by simp) hset hs parts (target := none)
    (weight := List.replicate n (0 : K)) (by intro t ht; cases ht)
  refine ⟨ind, hr, ?_⟩
  have hz : ∀ l : List Nat, wsum A (List.replicate n (0 : K)) l = 0 := by
    intro l
    rw [wsum_eq_sum hA]
    refine List.sum_eq_zero ?_
    intro x hx
    obtain ⟨y, -, rfl⟩ := List.mem_map.1 hx
    rw [List.getD_eq_getElem?_getD, List.getElem?_replicate]
    split <;> rfl
  intro j
  induction j with
  | zero => intro _; exact h2
  | succ j ih =>
    intro hj
    have hb := (h3 j (by omega)).2.2.1
    have h0 := ih (by omega)
    by_contra hne
    have hle := (h3 j (by omega)).2.1
    have hnonempty : partOf ind set j ≠ [] := by
      intro hc
      have : (partOf ind set j).length = 0 := by rw [hc]; rfl
      rw [partOf, List.length_take, List.length_drop] at this
      omega
    have := hb [] (partOf ind set j) rfl hnonempty
    rw [hz, goal] at this
    rw [hz, he, hA.lt] at this
    simp at this

end Exact

/-! ### Concrete cases -/

/-- Arithmetic on the natural numbers. -/
def natOps : Ops Nat := ⟨0, (· + ·), (· < ·), (fun a b => decide (b ≤ a)), fun s k => (s + k - 1) / k⟩

/-- Arithmetic on the rational numbers, rounding up as the code does. -/
def ratOps : Ops ℚ := ⟨0, (· + ·), (· < ·), (fun a b => !decide (a < b)), fun s k => (⌈s / k⌉ : ℚ)⟩

example : natOps.Total := by
  intro a b
  simp only [natOps]
  by_cases h : a < b
  · simp [h]
  · simp [h]; omega

theorem ratOps_exact : ratOps.Exact where
  zero := rfl
  add _ _ := rfl
  lt _ _ := rfl
  ge _ _ := rfl
  even s k hk := by
    have hk' : (0 : ℚ) < k := by exact_mod_cast hk
    have h := Int.le_ceil (s / (k : ℚ))
    have : s = s / (k : ℚ) * k := by field_simp
    calc s = s / (k : ℚ) * k := this
      _ ≤ _ := by exact mul_le_mul_of_nonneg_right h hk'.le

/-- Two searches (from 0 and from 2), two parts: the first ends in the middle of the first search. -/
example : byBfs natOps true 4 [0, 2, 4, 5, 6] [1, 3, 0, 1, 2, 3] [1, 2, 1, 2] 2 none
    = ok ([0, 2], [0, 2, 4], [0, 1, 3, 2]) := by decide +kernel

/-- The targets are reached early: nodes that the search did not discover go to the last part. -/
example : byBfs natOps true 4 [0, 2, 3, 4, 4] [0, 3, 1, 2] [1, 1, 1, 1] 2 (some [1, 0])
    = ok ([0, 2], [0, 1, 4], [0, 3, 1, 2]) := by decide +kernel

example : byWeight natOps 5 [4, 3, 2, 1, 0] [5, 1, 1, 2, 3] 2 none = ok [0, 3, 5] := by decide +kernel

/-- **C89** With given targets, nodes can be lost even though their weights are positive. -/
theorem C89_weight_target_loses : byWeight natOps 3 [0, 1, 2] [1, 1, 1] 2 (some [1, 1]) = ok [0, 1, 2] := by
  decide +kernel

example : ∃ ind, byWeight ratOps 3 [2, 0, 1] [1, 2, 3] 2 none = ok ind ∧ ind.getD 2 0 = 3 :=
  C89_weight_complete (weight := [1, 2, 3]) (set := [2, 0, 1]) (n := 3) (parts := 2) ratOps_exact rfl
    (by decide) (by decide +kernel) (by omega)

example : ratOps.even 0 3 = 0 := by simp [ratOps]

end Verif.PartW
