import Verif.Model.Group
import Verif.Proof.SchedWin
import Verif.Proof.Graph
import Verif.Proof.Dense

/-! # The graph of groups -/

namespace Verif

/-! ### Loops over slices -/

/-- A counting loop that reads a slice and then the rest. -/
theorem forRange_slice {α σ : Type} (l : List α) (g : α → σ → Res σ) {lo hi : Nat} (s : σ)
    (hle : lo ≤ hi) (h : hi ≤ l.length) :
    forRange lo hi (fun j s => Res.bind (rd l j) fun v => g v s) s = forEach (slice l lo hi) g s := by
  unfold forRange
  exact forRange_rd l g (hi - lo) lo s (by omega)

/-- A loop that appends. -/
theorem forEach_push {α β : Type} {f : α → List β → Res (List β)} (c : α → List β) :
    ∀ (l : List α) (acc : List β), (∀ a ∈ l, ∀ acc, f a acc = Res.ok (acc ++ c a)) →
      forEach l f acc = Res.ok (acc ++ l.flatMap c) := by
  intro l
  induction l with
  | nil => intro acc _; simp [forEach]
  | cons a l ih =>
    intro acc h
    show f a acc >>= forEach l f = _
    rw [h a (by simp) acc, Res.ok_bind, ih _ (fun b hb => h b (by simp [hb]))]
    simp

namespace Grouping
variable {G : Grouping} {n : Nat}

theorem rows_eq (G : Grouping) (j : Nat) :
    groupRows G.ptr G.set j = slice G.set (G.ptr.getD j 0) (G.ptr.getD (j + 1) 0) := rfl

theorem Partition.set_len (h : G.Partition n) : n ≤ G.set.length := by
  have := h.nodes.length_eq
  simp at this
  omega

theorem Partition.get (h : G.Partition n) {j k v : Nat} (hj : j < G.num)
    (h2 : k < G.ptr.getD (j + 1) 0) (hv : G.set[k]? = some v) : (G.set.take n)[k]? = some v := by
  have := h.ptr.dle (b := j + 1) hj
  rw [List.getElem?_take, if_pos (by omega)]
  exact hv

theorem Partition.mem_lt (h : G.Partition n) {v j : Nat} (hm : G.Mem v j) : v < n := by
  obtain ⟨hj, hv⟩ := hm
  rw [rows_eq, mem_slice] at hv
  obtain ⟨k, _, h2, h3⟩ := hv
  exact List.mem_range.1 (h.nodes.mem_iff.1 (List.mem_of_getElem? (h.get hj h2 h3)))

theorem Partition.unique (h : G.Partition n) {v j j' : Nat} (hm : G.Mem v j) (hm' : G.Mem v j') :
    j = j' := by
  obtain ⟨hj, hv⟩ := hm
  obtain ⟨hj', hv'⟩ := hm'
  rw [rows_eq, mem_slice] at hv hv'
  obtain ⟨k, h1, h2, h3⟩ := hv
  obtain ⟨k', h1', h2', h3'⟩ := hv'
  have hnd : (G.set.take n).Nodup := h.nodes.nodup_iff.2 List.nodup_range
  have := nodup_getElem?_inj hnd (h.get hj h2 h3) (h.get hj' h2' h3')
  subst this
  exact h.ptr.block_unique hj hj' h1 h2 h1' h2'

theorem Partition.exists (h : G.Partition n) {v : Nat} (hv : v < n) : ∃ j, G.Mem v j := by
  have hm := h.nodes.mem_iff.2 (List.mem_range.2 hv)
  obtain ⟨k, hk⟩ := List.mem_iff_getElem?.1 hm
  rw [List.getElem?_take] at hk
  split at hk
  · next hkn =>
    obtain ⟨j, h1, h2, h3⟩ := h.ptr.exists_block hkn
    exact ⟨j, h1, by rw [rows_eq, mem_slice]; exact ⟨k, h2, h3, hk⟩⟩
  · cases hk

theorem Partition.rd_lo (h : G.Partition n) {j : Nat} (hj : j < G.num) :
    rd G.ptr j = Res.ok (G.ptr.getD j 0) ∧ rd G.ptr (j + 1) = Res.ok (G.ptr.getD (j + 1) 0) := by
  have := h.ptr.len
  exact ⟨rd_getD 0 (by omega), rd_getD 0 (by omega)⟩

theorem Partition.bounds (h : G.Partition n) {j : Nat} (hj : j < G.num) :
    G.ptr.getD j 0 ≤ G.ptr.getD (j + 1) 0 ∧ G.ptr.getD (j + 1) 0 ≤ G.set.length := by
  have := h.ptr.dle (b := j + 1) hj
  have := h.set_len
  exact ⟨h.ptr.dmono hj, by omega⟩

end Grouping

namespace Group
open Res

/-! ### `std::unique` on a sorted list -/

theorem mem_stdUnique : ∀ (l : List Nat) (a : Nat), a ∈ stdUnique l ↔ a ∈ l
  | [], a => by simp [stdUnique]
  | [b], a => by simp [stdUnique]
  | b :: c :: l, a => by
    rw [stdUnique]
    split
    · next h =>
      subst h
      rw [mem_stdUnique]
      simp
    · rw [List.mem_cons, mem_stdUnique, List.mem_cons (a := a) (b := b)]

theorem stdUnique_sorted : ∀ (l : List Nat), l.Pairwise (· ≤ ·) → (stdUnique l).Pairwise (· < ·)
  | [], _ => by simp [stdUnique]
  | [b], _ => by simp [stdUnique]
  | b :: c :: l, h => by
    rw [stdUnique]
    have h' := List.pairwise_cons.1 h
    have ih := stdUnique_sorted (c :: l) h'.2
    split
    · exact ih
    · next hne =>
      rw [List.pairwise_cons]
      refine ⟨?_, ih⟩
      intro a ha
      rw [mem_stdUnique] at ha
      have h1 := h'.1 a ha
      have h2 := h'.1 c (by simp)
      rcases List.mem_cons.1 ha with rfl | ha'
      · omega
      · have := (List.pairwise_cons.1 h'.2).1 a ha'
        omega

/-! ### The inverse map -/

/-- `inv` maps every member of the groups in `pre` to its group. -/
def InvOn (G : Grouping) (n : Nat) (pre inv : List Nat) : Prop :=
  inv.length = n ∧ ∀ j ∈ pre, ∀ v, G.Mem v j → inv.getD v 0 = j

theorem groupInv_wp {G : Grouping} {n : Nat} (h : G.Partition n) {order : List Nat}
    (ho : ∀ j ∈ order, j < G.num) :
    wp (groupInv n order G.ptr G.set) (InvOn G n order) := by
  unfold groupInv
  have key := forEach_wp (InvOn G n) (f := fun g inv => do
    let lo ← rd G.ptr g
    let hi ← rd G.ptr (g + 1)
    forRange lo hi (fun i inv => do
      let node ← rd G.set i
      wr inv node g) inv) order [] (List.replicate n 0) ⟨by simp, by simp⟩ ?_
  · exact key
  · intro pre j post inv heq hI
    have hj : j < G.num := ho j (by rw [List.nil_append] at heq; rw [heq]; simp)
    rw [(h.rd_lo hj).1, ok_bind, (h.rd_lo hj).2, ok_bind]
    have hb := h.bounds hj
    have hs := forRange_slice G.set (fun node inv => wr inv node j) inv hb.1 hb.2
    change wp (forRange _ _ (fun i inv => Res.bind (rd G.set i) fun node => wr inv node j) inv) _
    rw [hs]
    have hmem : ∀ v, v ∈ slice G.set (G.ptr.getD j 0) (G.ptr.getD (j + 1) 0) ↔ G.Mem v j := by
      intro v
      exact ⟨fun hv => ⟨hj, hv⟩, fun hv => hv.2⟩
    have inner := forEach_wp (fun (done : List Nat) (inv' : List Nat) => inv'.length = n ∧
      (∀ v ∈ done, inv'.getD v 0 = j) ∧
      ∀ v, ¬ G.Mem v j → inv'.getD v 0 = inv.getD v 0) (f := fun node inv => wr inv node j)
      (slice G.set (G.ptr.getD j 0) (G.ptr.getD (j + 1) 0)) [] inv ⟨hI.1, by simp, fun _ _ => rfl⟩ ?_
    · refine wp_mono inner ?_
      rintro inv' ⟨h1, h2, h3⟩
      refine ⟨h1, ?_⟩
      intro k hk v hv
      rcases List.mem_append.1 hk with hk | hk
      · by_cases hkj : k = j
        · subst hkj
          exact h2 v ((hmem v).2 hv)
        · rw [h3 v (fun hc => hkj (h.unique hv hc))]
          exact hI.2 k hk v hv
      · simp at hk
        subst hk
        exact h2 v ((hmem v).2 hv)
    · rintro p v q s hpq ⟨h1, h2, h3⟩
      have hv : G.Mem v j := (hmem v).1 (by rw [List.nil_append] at hpq; rw [hpq]; simp)
      have hlt : v < s.length := by rw [h1]; exact h.mem_lt hv
      rw [wr_eq hlt, wp_ok]
      refine ⟨by simpa using h1, ?_, ?_⟩
      · intro w hw
        rw [getD_set]
        split
        · rfl
        · next hc =>
          rcases List.mem_append.1 hw with hw | hw
          · exact h2 w hw
          · simp at hw
            subst hw
            exact absurd ⟨rfl, hlt⟩ hc
      · intro w hw
        rw [getD_set, if_neg, h3 w hw]
        rintro ⟨rfl, _⟩
        exact hw hv

/-! ### The lists of successor groups -/

theorem groupSuccs_eq {G : Grouping} {g : Csc} (hg : g.WF) (h : G.Partition g.n) {inv : List Nat}
    (hl : inv.length = g.n) {j : Nat} (hj : j < G.num) :
    groupSuccs G.ptr G.set g.p g.i inv j
      = ok ((groupRows G.ptr G.set j).flatMap fun u => (g.col u).map fun v => inv.getD v 0) := by
  unfold groupSuccs
  rw [(h.rd_lo hj).1, ok_bind, (h.rd_lo hj).2, ok_bind]
  have hb := h.bounds hj
  have hs := forRange_slice G.set (fun node (acc : List Nat) => do
    let lo ← rd g.p node
    let hi ← rd g.p (node + 1)
    forRange lo hi (fun c acc => do
      let v ← rd g.i c
      let h ← rd inv v
      ok (acc ++ [h])) acc) [] hb.1 hb.2
  refine hs.trans ?_
  refine (forEach_push (fun u => (g.col u).map fun v => inv.getD v 0) _ _ ?_).trans (by
    rw [List.nil_append]; rfl)
  intro u hu acc
  have hun : u < g.n := h.mem_lt ⟨hj, hu⟩
  rw [hg.rd_p (by omega), ok_bind, hg.rd_p (by omega), ok_bind]
  have hs2 := forRange_slice g.i (fun v (acc : List Nat) => do
      let h ← rd inv v
      ok (acc ++ [h])) acc (hg.mono u hun) (hg.ptr_le (a := u + 1) hun)
  refine hs2.trans ?_
  refine (forEach_push (fun v => [inv.getD v 0]) _ _ ?_).trans ?_
  · intro v hv acc
    have := hg.range u hun v hv
    rw [rd_getD 0 (by omega), ok_bind]
  · congr 2
    change (g.col u).flatMap _ = _
    exact List.flatMap_pure_eq_map _ _

/-- The sorted duplicate-free list of group `j`. -/
def succList (G : Grouping) (g : Csc) (inv : List Nat) (j : Nat) : List Nat :=
  stdUnique (((groupRows G.ptr G.set j).flatMap fun u =>
    (g.col u).map fun v => inv.getD v 0).insertionSort (· ≤ ·))

theorem groupLists_eq {G : Grouping} {g : Csc} (hg : g.WF) (h : G.Partition g.n) {inv : List Nat}
    (hl : inv.length = g.n) {order : List Nat} (ho : order.Perm (List.range G.num)) :
    groupLists G.num order G.ptr G.set g.p g.i inv
      = ok ((List.range G.num).map (succList G g inv)) := by
  unfold groupLists
  have key := forEach_wp (fun (pre : List Nat) (rows : List (List Nat)) => rows.length = G.num ∧
    ∀ j ∈ pre, rows.getD j [] = succList G g inv j) (f := fun j rows => do
    let r ← groupSuccs G.ptr G.set g.p g.i inv j
    wr rows j (stdUnique (r.insertionSort (· ≤ ·)))) order [] (List.replicate G.num [])
    ⟨by simp, by simp⟩ ?_
  · obtain ⟨rows, h1, h2, h3⟩ := wp_iff.1 key
    rw [h1]
    congr 1
    apply List.ext_getElem?
    intro k
    by_cases hk : k < G.num
    · have := h3 k (by rw [List.nil_append]; exact ho.mem_iff.2 (List.mem_range.2 hk))
      rw [getElem?_getD [] (by omega), this]
      simp [hk]
    · rw [List.getElem?_eq_none (by omega), List.getElem?_eq_none (by simp; omega)]
  · rintro pre j post rows heq ⟨h1, h2⟩
    have hj : j < G.num := List.mem_range.1 (ho.mem_iff.1 (by
      rw [List.nil_append] at heq; rw [heq]; simp))
    rw [groupSuccs_eq hg h hl hj, ok_bind, wr_eq (by omega), wp_ok]
    refine ⟨by simpa using h1, ?_⟩
    intro k hk
    rw [getD_set]
    by_cases hkj : j = k
    · subst hkj
      rw [if_pos ⟨rfl, by omega⟩]
      rfl
    · rw [if_neg (fun hc => hkj hc.1)]
      rcases List.mem_append.1 hk with hk | hk
      · exact h2 k hk
      · simp at hk
        exact absurd hk.symm hkj

/-! ### The output arrays -/

theorem totalLen_eq (rows : List (List Nat)) : totalLen rows = rows.flatten.length := by
  unfold totalLen
  have : ∀ (rows : List (List Nat)) (s : Nat),
      rows.foldl (fun s r => s + r.length) s = s + rows.flatten.length := by
    intro rows
    induction rows with
    | nil => intro s; simp
    | cons r rows ih => intro s; rw [List.foldl_cons, ih]; simp; omega
  rw [this]; simp

theorem flatten_take_le (rows : List (List Nat)) {a b : Nat} (h : a ≤ b) :
    (rows.take a).flatten.length ≤ (rows.take b).flatten.length := by
  have : rows.take a = (rows.take b).take a := by rw [List.take_take, Nat.min_eq_left h]
  rw [this]
  conv_rhs => rw [← List.take_append_drop a (rows.take b)]
  rw [List.flatten_append, List.length_append]
  omega

theorem flatten_take_succ (rows : List (List Nat)) {k : Nat} (h : k < rows.length) :
    (rows.take (k + 1)).flatten = (rows.take k).flatten ++ rows.getD k [] := by
  rw [List.take_add_one, List.flatten_append, getElem?_getD [] h]
  simp

theorem concatLists_wp {num : Nat} {rows : List (List Nat)} (hl : rows.length = num) :
    wp (concatLists num rows) (fun r => r.1.length = num + 1 ∧
      (∀ k, k ≤ num → r.1.getD k 0 = (rows.take k).flatten.length) ∧ r.2 = rows.flatten) := by
  unfold concatLists
  rw [wp_bind]
  refine forRange_wp' (fun t (s : List Nat × List Nat × Nat) => s.1.length = num + 1 ∧
    (∀ k, k < t → s.1.getD k 0 = (rows.take k).flatten.length) ∧
    s.2.1.length = rows.flatten.length ∧ s.2.2 = (rows.take t).flatten.length ∧
    s.2.1.take s.2.2 = (rows.take t).flatten) (Nat.zero_le _) ?_ ?_ ?_
  · exact ⟨by simp, by intro k hk; omega, by simp [totalLen_eq], by simp, by simp⟩
  · rintro t ⟨ptr, set, e⟩ _ ht ⟨h1, h2, h3, h4, h5⟩
    dsimp only at h1 h2 h3 h4 h5 ⊢
    rw [wr_eq (by omega), ok_bind, rd_getD [] (by omega), ok_bind, wp_bind]
    obtain ⟨r, hr⟩ : ∃ r, rows.getD t [] = r := ⟨_, rfl⟩
    rw [hr]
    have htot : e + r.length ≤ set.length := by
      have h6 := flatten_take_le rows (a := t + 1) (b := rows.length) (by omega)
      rw [flatten_take_succ rows (by omega), List.take_length, List.length_append, hr] at h6
      omega
    have inner := forRange_wp (fun j (q : List Nat × Nat) => q.1.length = set.length ∧
      q.2 = e + j ∧ q.1.take q.2 = (rows.take t).flatten ++ r.take j) (lo := 0) (hi := r.length)
      (f := fun j (q : List Nat × Nat) => do
        let v ← rd r j
        let set ← wr q.1 q.2 v
        ok (set, q.2 + 1)) (s := (set, e)) (Nat.zero_le _) ⟨rfl, rfl, by simpa using h5⟩ ?_
    · refine wp_mono inner ?_
      rintro ⟨set', e'⟩ ⟨g1, g2, g3⟩
      dsimp only at g1 g2 g3 ⊢
      rw [wp_ok]
      refine ⟨by simpa using h1, ?_, g1.trans h3, ?_, ?_⟩
      · intro k hk
        rw [getD_set]
        by_cases hkt : t = k
        · subst hkt
          rw [if_pos ⟨rfl, by omega⟩, h4]
        · rw [if_neg (fun hc => hkt hc.1), h2 k (by omega)]
      · rw [flatten_take_succ rows (by omega), List.length_append, hr]; dsimp only; omega
      · rw [flatten_take_succ rows (by omega), hr, g3, List.take_length]
    · rintro j ⟨set', e'⟩ _ hj ⟨g1, g2, g3⟩
      dsimp only at g1 g2 g3 ⊢
      rw [rd_getD 0 hj, ok_bind, wr_eq (by omega), ok_bind, wp_ok]
      refine ⟨by simpa using g1, by dsimp only; omega, ?_⟩
      dsimp only
      rw [LevelSet.take_set_succ _ _ _ (by omega), g3, List.take_add_one, getElem?_getD 0 hj]
      simp
  · rintro ⟨ptr, set, e⟩ ⟨h1, h2, h3, h4, h5⟩
    dsimp only at h1 h2 h3 h4 h5 ⊢
    rw [wr_eq (by omega), ok_bind, wp_ok]
    refine ⟨by simpa using h1, ?_, ?_⟩
    · intro k hk
      dsimp only
      rw [getD_set]
      by_cases hkt : num = k
      · subst hkt
        rw [if_pos ⟨rfl, by omega⟩, h4]
      · rw [if_neg (fun hc => hkt hc.1), h2 k (by omega)]
    · dsimp only
      rw [← hl, List.take_length] at h4 h5
      rw [← h5, h4, ← h3, List.take_length]

theorem buildGroupDAG_wp {G : Grouping} {g : Csc} (hg : g.WF) (h : G.Partition g.n)
    {order order' : List Nat} (ho : order.Perm (List.range G.num))
    (ho' : order'.Perm (List.range G.num)) :
    wp (buildGroupDAG order order' g.n G.num G.ptr G.set g.p g.i) (fun r =>
      ∃ inv, InvOn G g.n (List.range G.num) inv ∧ r.1.length = G.num + 1 ∧
      (∀ k, k ≤ G.num → r.1.getD k 0
        = ((((List.range G.num).map (succList G g inv)).take k).flatten).length) ∧
      r.2 = ((List.range G.num).map (succList G g inv)).flatten) := by
  unfold buildGroupDAG
  rw [wp_bind]
  refine wp_mono (groupInv_wp h (fun j hj => List.mem_range.1 (ho.mem_iff.1 hj))) ?_
  rintro inv ⟨hl, hi⟩
  rw [groupLists_eq hg h hl ho', ok_bind]
  refine wp_mono (concatLists_wp (by simp)) ?_
  rintro r ⟨h1, h2, h3⟩
  exact ⟨inv, ⟨hl, fun j hj => hi j (ho.mem_iff.2 hj)⟩, h1, h2, h3⟩

theorem slice_flatten (rows : List (List Nat)) {k : Nat} (h : k < rows.length) :
    slice rows.flatten (rows.take k).flatten.length (rows.take (k + 1)).flatten.length
      = rows.getD k [] := by
  have e : rows.flatten = (rows.take k).flatten ++ (rows.getD k [] ++ (rows.drop (k + 1)).flatten) := by
    conv_lhs => rw [← List.take_append_drop (k + 1) rows]
    rw [List.flatten_append, flatten_take_succ rows h, List.append_assoc]
  rw [slice, e, List.drop_left, flatten_take_succ rows h, List.length_append,
    Nat.add_sub_cancel_left, List.take_left]

theorem mem_succList {G : Grouping} {g : Csc} (hg : g.WF) (h : G.Partition g.n) {inv : List Nat}
    (hi : InvOn G g.n (List.range G.num) inv) {a b : Nat} (ha : a < G.num) :
    b ∈ succList G g inv a ↔ ∃ u v, G.Mem u a ∧ G.Mem v b ∧ v ∈ g.col u := by
  unfold succList
  rw [mem_stdUnique, List.mem_insertionSort, List.mem_flatMap]
  constructor
  · rintro ⟨u, hu, hv⟩
    rw [List.mem_map] at hv
    obtain ⟨v, hv, rfl⟩ := hv
    have hun := h.mem_lt ⟨ha, hu⟩
    obtain ⟨j, hj⟩ := h.exists (hg.range u hun v hv)
    rw [hi.2 j (List.mem_range.2 hj.1) v hj]
    exact ⟨u, v, ⟨ha, hu⟩, hj, hv⟩
  · rintro ⟨u, v, hu, hv, hc⟩
    exact ⟨u, hu.2, List.mem_map.2 ⟨v, hc, hi.2 b (List.mem_range.2 hv.1) v hv⟩⟩

theorem succList_sorted (G : Grouping) (g : Csc) (inv : List Nat) (a : Nat) :
    (succList G g inv a).Pairwise (· < ·) :=
  stdUnique_sorted _ (List.pairwise_insertionSort _ _)

end Group
end Verif
