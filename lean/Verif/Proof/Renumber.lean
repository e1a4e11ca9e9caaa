import Verif.Proof.TreeLoop
import Verif.Proof.Bucket

/-! # Renumbering the groups by their smallest nodes -/

namespace Verif.Group
open Res

variable {G : Grouping} {n : Nat}

/-- The smallest node of group `i` (`n` for an empty group). -/
def leader (G : Grouping) (n i : Nat) : Nat :=
  (groupRows G.ptr G.set i).foldl (fun a b => if b < a then b else a) n

theorem foldl_min_le (l : List Nat) (a : Nat) :
    l.foldl (fun a b => if b < a then b else a) a ≤ a ∧
    ∀ x ∈ l, l.foldl (fun a b => if b < a then b else a) a ≤ x := by
  induction l generalizing a with
  | nil => simp
  | cons b l ih =>
    simp only [List.foldl_cons, List.mem_cons]
    obtain ⟨h1, h2⟩ := ih (if b < a then b else a)
    have h3 : (if b < a then b else a) ≤ a ∧ (if b < a then b else a) ≤ b := by split <;> omega
    refine ⟨by omega, ?_⟩
    rintro x (rfl | hx)
    · omega
    · exact h2 x hx

theorem foldl_min_mem (l : List Nat) (a : Nat) :
    l.foldl (fun a b => if b < a then b else a) a = a ∨
    l.foldl (fun a b => if b < a then b else a) a ∈ l := by
  induction l generalizing a with
  | nil => simp
  | cons b l ih =>
    simp only [List.foldl_cons, List.mem_cons]
    by_cases h : b < a
    · rw [if_pos h]
      rcases ih b with h1 | h1
      · exact Or.inr (Or.inl h1)
      · exact Or.inr (Or.inr h1)
    · rw [if_neg h]
      rcases ih a with h1 | h1
      · exact Or.inl h1
      · exact Or.inr (Or.inr h1)

theorem leader_le (G : Grouping) (n : Nat) {i v : Nat} (h : v ∈ groupRows G.ptr G.set i) :
    leader G n i ≤ v := (foldl_min_le _ n).2 v h

theorem leader_mem (hP : G.Partition n) (hne : G.NonEmpty) {i : Nat} (hi : i < G.num) :
    G.Mem (leader G n i) i := by
  refine ⟨hi, ?_⟩
  rcases foldl_min_mem (groupRows G.ptr G.set i) n with h | h
  · obtain ⟨v, hv⟩ := List.exists_mem_of_ne_nil _ (hne i hi)
    have h1 := leader_le G n hv
    have h2 := hP.mem_lt ⟨hi, hv⟩
    unfold leader at h1
    omega
  · exact h

theorem leader_inj (hP : G.Partition n) (hne : G.NonEmpty) {i j : Nat} (hi : i < G.num)
    (hj : j < G.num) (h : leader G n i = leader G n j) : i = j := by
  have h1 := leader_mem hP hne hi
  rw [h] at h1
  exact hP.unique h1 (leader_mem hP hne hj)

theorem minNode_eq (hP : G.Partition n) {i : Nat} (hi : i < G.num) :
    minNode n G.set (G.ptr.getD i 0) (G.ptr.getD (i + 1) 0) = ok (leader G n i) := by
  have hb := hP.bounds hi
  have hs := forRange_slice G.set (fun node id => ok (if node < id then node else id)) n hb.1 hb.2
  unfold minNode
  refine Eq.trans ?_ (hs.trans ?_)
  · rfl
  · unfold leader
    rw [Grouping.rows_eq]
    generalize slice G.set (G.ptr.getD i 0) (G.ptr.getD (i + 1) 0) = l
    clear hs
    generalize n = a
    induction l generalizing a with
    | nil => rfl
    | cons b l ih =>
      show (ok _ >>= _) = _
      rw [ok_bind, List.foldl_cons]
      exact ih _

theorem fillConst_wp (id : Nat) (l gid : List Nat) (h : ∀ v ∈ l, v < gid.length) :
    wp (forEach l (fun node gid => wr gid node id) gid) fun r => r.length = gid.length ∧
      ∀ v, r.getD v 0 = if v ∈ l then id else gid.getD v 0 := by
  have := forEach_wp (f := fun node gid => wr gid node id)
    (fun pre (r : List Nat) => r.length = gid.length ∧
      ∀ v, r.getD v 0 = if v ∈ pre then id else gid.getD v 0) l [] gid
    ⟨rfl, by simp⟩ (by
      rintro p a q r he ⟨h1, h2⟩
      have ha : a < r.length := by rw [h1]; exact h a (by rw [List.nil_append] at he; rw [he]; simp)
      rw [wr_eq ha, wp_ok]
      refine ⟨by rw [List.length_set, h1], ?_⟩
      intro v
      rw [getD_set, h2 v]
      by_cases hav : a = v
      · subst hav
        rw [if_pos ⟨rfl, ha⟩, if_pos (by simp)]
      · rw [if_neg (fun h => hav h.1)]
        have : v ≠ a := fun h => hav h.symm
        simp [this])
  simpa using this

/-- What naming the groups in `pre` has achieved. -/
structure NamedOn (G : Grouping) (n : Nat) (pre : List Nat) (s : List Nat × List Nat) : Prop where
  ilen : s.1.length = n
  slen : s.2.length = n + 1
  gid : ∀ i ∈ pre, ∀ v, G.Mem v i → s.1.getD v 0 = leader G n i
  size : ∀ i ∈ pre, s.2.getD (leader G n i + 1) 0 = (groupRows G.ptr G.set i).length
  zero : ∀ k, (∀ i ∈ pre, leader G n i ≠ k) → s.2.getD (k + 1) 0 = 0
  first : s.2.getD 0 0 = 0

theorem nameGroups_wp (hP : G.Partition n) (hne : G.NonEmpty) {order : List Nat}
    (ho : order.Perm (List.range G.num)) :
    wp (nameGroups order n G.ptr G.set) (NamedOn G n order) := by
  unfold nameGroups
  have hlt : ∀ i ∈ order, i < G.num := fun i hi => List.mem_range.1 (ho.mem_iff.1 hi)
  have hnd : order.Nodup := ho.nodup_iff.2 List.nodup_range
  refine wp_mono (forEach_wp (NamedOn G n) order [] _ ?_ ?_) (by intro s hs; simpa using hs)
  · refine ⟨by simp, by simp, by simp, by simp, ?_, ?_⟩
    · intro k _
      dsimp only
      rw [List.getD_eq_getElem?_getD, List.getElem?_replicate]; split <;> rfl
    · dsimp only
      rw [getD_replicate _ _ _ _ (by omega)]
  · rintro pre i post s he hI
    rw [List.nil_append] at he
    have hi := hlt i (by rw [he]; simp)
    have hpre : ∀ j ∈ pre, j < G.num ∧ j ≠ i := by
      intro j hj
      refine ⟨hlt j (by rw [he]; simp [hj]), ?_⟩
      rintro rfl
      rw [he, List.nodup_append] at hnd
      exact hnd.2.2 _ hj _ (by simp) rfl
    have hb := hP.bounds hi
    have hlm := leader_mem hP hne hi
    have hln := hP.mem_lt hlm
    have hgl : (groupRows G.ptr G.set i).length = G.ptr.getD (i + 1) 0 - G.ptr.getD i 0 := by
      rw [Grouping.rows_eq, slice_length hb.2]
    rw [(hP.rd_lo hi).1, ok_bind, (hP.rd_lo hi).2, ok_bind, minNode_eq hP hi, ok_bind,
      wr_eq (by rw [hI.slen]; omega), ok_bind]
    have hs := forRange_slice G.set (fun node gid => wr gid node (leader G n i)) s.1 hb.1 hb.2
    change wp (Res.bind (forRange _ _ (fun j gid => Res.bind (rd G.set j) fun node =>
      wr gid node (leader G n i)) s.1) _) _
    rw [hs]
    show wp (_ >>= _) _
    rw [wp_bind]
    refine wp_mono (fillConst_wp _ _ _ ?_) ?_
    · intro v hv
      rw [hI.ilen]
      exact hP.mem_lt ⟨hi, hv⟩
    · rintro gid ⟨h1, h2⟩
      rw [wp_ok]
      have hne' : ∀ j ∈ pre, leader G n j ≠ leader G n i := fun j hj h =>
        (hpre j hj).2 (leader_inj hP hne (hpre j hj).1 hi h)
      refine ⟨by dsimp only; rw [h1, hI.ilen], by dsimp only; rw [List.length_set, hI.slen],
        ?_, ?_, ?_, ?_⟩
      · intro j hj v hv
        dsimp only
        rw [h2 v]
        rcases List.mem_append.1 hj with h3 | h3
        · rw [if_neg, hI.gid j h3 v hv]
          intro h4
          exact (hpre j h3).2 (hP.unique hv ⟨hi, h4⟩)
        · simp only [List.mem_singleton] at h3
          subst h3
          exact if_pos hv.2
      · intro j hj
        dsimp only
        rw [getD_set]
        rcases List.mem_append.1 hj with h3 | h3
        · rw [if_neg (by have := hne' j h3; omega), hI.size j h3]
        · simp only [List.mem_singleton] at h3
          subst h3
          rw [if_pos ⟨rfl, by rw [hI.slen]; omega⟩, hgl]
      · intro k hk
        dsimp only
        have h3 := hk i (by simp)
        rw [getD_set, if_neg (by omega)]
        exact hI.zero k (fun j hj => hk j (by simp [hj]))
      · dsimp only
        rw [getD_set, if_neg (by omega)]
        exact hI.first

/-- The nodes with the name of group `i` are the members of group `i`, in order. -/
theorem filter_leader (hP : G.Partition n) (hne : G.NonEmpty) (hl : G.set.length = n)
    {key : Nat → Nat} (hk : ∀ i, i < G.num → ∀ v, G.Mem v i → key v = leader G n i) {i : Nat}
    (hi : i < G.num) :
    G.set.filter (fun v => key v = leader G n i) = groupRows G.ptr G.set i := by
  have hb := hP.bounds hi
  have h0 : G.set = slice G.set 0 (G.ptr.getD i 0) ++ (groupRows G.ptr G.set i ++
      slice G.set (G.ptr.getD (i + 1) 0) n) := by
    rw [Grouping.rows_eq, slice_append hb.1 (by omega), slice_append (by omega) (by omega),
      slice_zero, ← hl, List.take_length]
  have hother : ∀ a b, b ≤ n → (∀ k, a ≤ k → k < b → ¬ (G.ptr.getD i 0 ≤ k ∧ k < G.ptr.getD (i + 1) 0)) →
      (slice G.set a b).filter (fun v => key v = leader G n i) = [] := by
    intro a b hbn hab
    rw [List.filter_eq_nil_iff]
    intro v hv
    rw [mem_slice] at hv
    obtain ⟨k, h1, h2, h3⟩ := hv
    obtain ⟨j, h4, h5, h6⟩ := hP.ptr.exists_block (show k < n by omega)
    have hm : G.Mem v j := ⟨h4, by rw [Grouping.rows_eq, mem_slice]; exact ⟨k, h5, h6, h3⟩⟩
    rw [hk j h4 v hm]
    simp only [decide_eq_true_eq]
    intro h7
    have := leader_inj hP hne h4 hi h7
    subst this
    exact hab k h1 h2 ⟨h5, h6⟩
  conv_lhs => rw [h0]
  rw [List.filter_append, List.filter_append, hother 0 _ (by have := hP.ptr.dle (b := i) (by omega); omega)
    (by intro k; omega), hother _ n (le_refl _) (by intro k; omega), List.nil_append,
    List.append_nil, List.filter_eq_self]
  intro v hv
  simp [hk i hi v ⟨hi, hv⟩]

theorem sumSizes_wp {key : Nat → Nat} {items size : List Nat} (hl : size.length = n + 1)
    (h0 : size.getD 0 0 = 0) (h : ∀ k, k < n → size.getD (k + 1) 0 = cntKey key items k) :
    wp (sumSizes n size) fun r => r.length = n + 1 ∧ ∀ k, k ≤ n → r.getD k 0 = below key items k := by
  unfold sumSizes
  by_cases hn : n = 0
  · subst hn
    rw [forRange_empty _ _ (by omega), wp_ok]
    refine ⟨hl, fun k hk => ?_⟩
    have : k = 0 := by omega
    subst this
    rw [h0, below_zero]
  · refine forRange_wp' (fun i (r : List Nat) => r.length = n + 1 ∧
      (∀ k, k ≤ i → r.getD k 0 = below key items k) ∧
      ∀ k, i ≤ k → k < n → r.getD (k + 1) 0 = cntKey key items k) (by omega) ?_ ?_ ?_
    · refine ⟨hl, ?_, fun k _ hk => h k hk⟩
      intro k hk
      have : k = 0 ∨ k = 1 := by omega
      rcases this with rfl | rfl
      · rw [h0, below_zero]
      · rw [h 0 (by omega), below_succ, below_zero, Nat.zero_add]
    · rintro i r h1 h2 ⟨k1, k2, k3⟩
      rw [rd_getD 0 (by omega), ok_bind, rd_getD 0 (by omega), ok_bind, wr_eq (by omega), wp_ok]
      refine ⟨by simpa using k1, ?_, ?_⟩
      · intro k hk
        rw [getD_set]
        by_cases hki : i + 1 = k
        · subst hki
          rw [if_pos ⟨rfl, by omega⟩, k3 i (le_refl _) h2, k2 i (le_refl _), below_succ]
          omega
        · rw [if_neg (by omega)]; exact k2 k (by omega)
      · intro k hk hkn
        rw [getD_set, if_neg (by omega)]
        exact k3 k (by omega) hkn
    · rintro r ⟨k1, k2, _⟩
      exact ⟨k1, k2⟩

/-- The keys below `i` that occur. -/
def usedKeys (key : Nat → Nat) (items : List Nat) (i : Nat) : List Nat :=
  (List.range i).filter fun k => cntKey key items k ≠ 0

theorem newGroupPtr_wp {key : Nat → Nat} {items size : List Nat} (hl : size.length = n + 1)
    (h : ∀ k, k ≤ n → size.getD k 0 = below key items k) :
    wp (newGroupPtr n size) fun r => r.length = (usedKeys key items n).length + 1 ∧
      r.getD 0 0 = 0 ∧ lastPtr r = below key items n ∧
      ∀ j, j < (usedKeys key items n).length →
        r.getD j 0 = below key items ((usedKeys key items n).getD j 0) ∧
        r.getD (j + 1) 0 = below key items ((usedKeys key items n).getD j 0 + 1) := by
  unfold newGroupPtr
  refine forRange_wp' (fun i (r : List Nat) => r.length = (usedKeys key items i).length + 1 ∧
      r.getD 0 0 = 0 ∧ lastPtr r = below key items i ∧
      ∀ j, j < (usedKeys key items i).length →
        r.getD j 0 = below key items ((usedKeys key items i).getD j 0) ∧
        r.getD (j + 1) 0 = below key items ((usedKeys key items i).getD j 0 + 1))
    (Nat.zero_le _) ?_ ?_ (fun s hs => hs)
  · simp [usedKeys, lastPtr, below_zero]
  · rintro i r _ hi ⟨k1, k2, k3, k4⟩
    rw [rd_getD 0 (by omega), ok_bind, rd_getD 0 (by omega), ok_bind, h _ (by omega), h _ (by omega)]
    have hu : usedKeys key items (i + 1) = usedKeys key items i ++
        if cntKey key items i ≠ 0 then [i] else [] := by
      unfold usedKeys
      rw [List.range_succ, List.filter_append]
      by_cases hc : cntKey key items i = 0 <;> simp [hc]
    have hb := below_succ key items i
    by_cases hc : cntKey key items i = 0
    · rw [if_neg (by omega), wp_ok, hu, if_neg (by omega), List.append_nil]
      exact ⟨k1, k2, by omega, k4⟩
    · rw [if_pos (by omega), wp_ok, hu, if_pos hc]
      refine ⟨by simp [k1], ?_, lastPtr_append _ _, ?_⟩
      · rw [getD_append_left _ _ _ (by omega)]; exact k2
      · intro j hj
        simp only [List.length_append, List.length_singleton] at hj
        by_cases hj' : j < (usedKeys key items i).length
        · rw [getD_append_left r _ _ (by omega), getD_append_left (usedKeys key items i) _ _ hj',
            getD_append_left r _ _ (by omega)]
          exact k4 j hj'
        · have hj2 : j = (usedKeys key items i).length := by omega
          have e1 : (usedKeys key items i ++ [i]).getD j 0 = i := by rw [hj2]; simp
          rw [e1, getD_append_left r _ _ (by omega)]
          refine ⟨?_, ?_⟩
          · rw [← k3]; unfold lastPtr; congr 1; omega
          · have : j + 1 = r.length := by omega
            rw [this]; simp

theorem placeNodes_wp {key : Nat → Nat} {items gid size : List Nat} (hn : items.length = n)
    (hgl : gid.length = n) (hlt : ∀ v ∈ items, v < n) (hkey : ∀ v, v < n → gid.getD v 0 = key v)
    (hkn : ∀ v ∈ items, key v < n) (hl : size.length = n + 1)
    (h : ∀ k, k ≤ n → size.getD k 0 = below key items k) :
    placeNodes n items gid size = ok (bucket n key items) := by
  have : wp (placeNodes n items gid size) fun r => r = bucket n key items := by
    unfold placeNodes
    rw [wp_bind]
    refine forRange_wp' (fun i (s : List Nat × List Nat) => s.1.length = n + 1 ∧
      (∀ k, k ≤ n → s.1.getD k 0 = posOf key items (items.take i) k) ∧
      Filled key (fun a => a) items (items.take i) s.2) (Nat.zero_le _) ?_ ?_ ?_
    · refine ⟨hl, ?_, Filled.init _ _ (by simp [hn])⟩
      intro k hk
      dsimp only
      rw [h k hk, posOf, List.take_zero, cntKey_nil, Nat.add_zero]
    · rintro i ⟨sz, out⟩ _ hi ⟨k1, k2, k3⟩
      dsimp only at k1 k2 k3 ⊢
      have hil : i < items.length := by omega
      have hmem : items[i] ∈ items := List.getElem_mem _
      have hsplit : items = items.take i ++ items[i] :: items.drop (i + 1) := by simp
      have htake : items.take (i + 1) = items.take i ++ [items[i]] := by
        rw [List.take_add_one, List.getElem?_eq_getElem hil]; rfl
      have hv := hlt _ hmem
      have hk := hkn _ hmem
      rw [rd_eq hil, ok_bind, rd_getD 0 (by omega), ok_bind, hkey _ hv, rd_getD 0 (by omega),
        ok_bind, k2 _ (by omega), wr_eq (by omega), ok_bind,
        wr_eq (by rw [k3.len]; exact posOf_lt_length key hsplit), ok_bind, wp_ok, htake]
      refine ⟨by simpa using k1, ?_, k3.step hsplit⟩
      intro k hkk
      dsimp only
      have hp : posOf key items (items.take i ++ [items[i]]) k =
          posOf key items (items.take i) k + if key items[i] = k then 1 else 0 := by
        unfold posOf; rw [cntKey_concat]; omega
      rw [getD_set, hp]
      by_cases hkk2 : key items[i] = k
      · rw [if_pos ⟨hkk2, by omega⟩, if_pos hkk2, hkk2]
      · rw [if_neg (fun h => hkk2 h.1), if_neg hkk2, k2 k hkk]; omega
    · rintro s ⟨_, _, k3⟩
      rw [wp_ok]
      rw [show items.take n = items by rw [← hn, List.take_length]] at k3
      rw [k3.done hkn]; simp
  obtain ⟨r, h1, h2⟩ := wp_iff.1 this
  rw [h1, h2]

/-- Renumbering permutes the groups so that their smallest nodes increase. -/
theorem renumber_wp (hP : G.Partition n) (hne : G.NonEmpty) (hl : G.set.length = n)
    {order : List Nat} (ho : order.Perm (List.range G.num)) :
    wp (renumber order n G.ptr G.set) fun r =>
      (⟨G.num, r.1, r.2⟩ : Grouping).Partition n ∧ r.2.length = n ∧ r.1.length = G.num + 1 ∧
      ∃ f : Nat → Nat, (∀ j, j < G.num → f j < G.num) ∧
        (∀ j k, j < k → k < G.num → leader G n (f j) < leader G n (f k)) ∧
        ∀ j, j < G.num → groupRows r.1 r.2 j = groupRows G.ptr G.set (f j) := by
  unfold renumber
  rw [wp_bind]
  refine wp_mono (nameGroups_wp hP hne ho) ?_
  intro s hs
  have ho' : ∀ i, i ∈ order ↔ i < G.num := fun i => by rw [ho.mem_iff, List.mem_range]
  have hperm : G.set.Perm (List.range n) := by
    have := hP.nodes
    rwa [List.take_of_length_le (by omega)] at this
  have hlt : ∀ v ∈ G.set, v < n := fun v hv => List.mem_range.1 (hperm.mem_iff.1 hv)
  obtain ⟨key, hkey⟩ : ∃ key : Nat → Nat, key = fun v => s.1.getD v 0 := ⟨_, rfl⟩
  have hk : ∀ i, i < G.num → ∀ v, G.Mem v i → key v = leader G n i := by
    intro i hi v hv
    rw [hkey]; exact hs.gid i ((ho' i).2 hi) v hv
  have hfil : ∀ i, i < G.num → G.set.filter (fun v => key v = leader G n i) =
      groupRows G.ptr G.set i := fun i hi => filter_leader hP hne hl hk hi
  have hkl : ∀ v ∈ G.set, ∃ i, i < G.num ∧ key v = leader G n i := by
    intro v hv
    obtain ⟨i, hi⟩ := hP.exists (hlt v hv)
    exact ⟨i, hi.1, hk i hi.1 v hi⟩
  have hkn : ∀ v ∈ G.set, key v < n := by
    intro v hv
    obtain ⟨i, h1, h2⟩ := hkl v hv
    rw [h2]; exact hP.mem_lt (leader_mem hP hne h1)
  have hcnt : ∀ k, k < n → s.2.getD (k + 1) 0 = cntKey key G.set k := by
    intro k _
    by_cases h : ∃ i, i < G.num ∧ leader G n i = k
    · obtain ⟨i, h1, h2⟩ := h
      rw [← h2, hs.size i ((ho' i).2 h1), ← filter_length, hfil i h1]
    · push Not at h
      rw [hs.zero k (fun i hi => h i ((ho' i).1 hi))]
      symm
      rw [cntKey, List.countP_eq_zero]
      intro v hv
      obtain ⟨i, h1, h2⟩ := hkl v hv
      simp only [decide_eq_true_eq]
      rw [h2]; exact h i h1
  rw [wp_bind]
  refine wp_mono (sumSizes_wp hs.slen hs.first hcnt) ?_
  rintro size ⟨z1, z2⟩
  rw [wp_bind]
  refine wp_mono (newGroupPtr_wp z1 z2) ?_
  rintro ptr ⟨p1, p2, p3, p4⟩
  rw [placeNodes_wp hl hs.ilen hlt (fun v _ => by rw [hkey]) hkn z1 z2, ok_bind, wp_ok]
  dsimp only
  -- the keys in use are the leaders
  have hmemU : ∀ k, k ∈ usedKeys key G.set n ↔ ∃ i, i < G.num ∧ leader G n i = k := by
    intro k
    unfold usedKeys
    simp only [List.mem_filter, List.mem_range, decide_eq_true_eq]
    constructor
    · rintro ⟨_, h2⟩
      have : 0 < cntKey key G.set k := by omega
      rw [cntKey, List.countP_pos_iff] at this
      obtain ⟨v, hv, hvk⟩ := this
      obtain ⟨i, h3, h4⟩ := hkl v hv
      refine ⟨i, h3, ?_⟩
      rw [← h4]; simpa using hvk
    · rintro ⟨i, h1, rfl⟩
      refine ⟨hP.mem_lt (leader_mem hP hne h1), ?_⟩
      rw [← filter_length, hfil i h1]
      have := hne i h1
      simpa [List.length_eq_zero_iff] using this
  have hsortU : (usedKeys key G.set n).Pairwise (· < ·) := (List.pairwise_lt_range).filter _
  have hlenU : (usedKeys key G.set n).length = G.num := by
    have : (usedKeys key G.set n).Perm ((List.range G.num).map (leader G n)) := by
      rw [List.perm_ext_iff_of_nodup (hsortU.imp (fun h => Nat.ne_of_lt h))
        (List.nodup_range.map_on ?_)]
      · intro k
        rw [hmemU]; simp
      · intro i hi j hj h
        exact leader_inj hP hne (List.mem_range.1 hi) (List.mem_range.1 hj) h
    simpa using this.length_eq
  rw [hlenU] at p1 p4
  have hbn : below key G.set n = n := by rw [below_all key G.set n hkn, hl]
  have hex : ∀ j, ∃ i, j < G.num → i < G.num ∧ leader G n i = (usedKeys key G.set n).getD j 0 := by
    intro j
    by_cases hj : j < G.num
    · have hm : (usedKeys key G.set n).getD j 0 ∈ usedKeys key G.set n := by
        rw [List.getD_eq_getElem?_getD, List.getElem?_eq_getElem (by omega), Option.getD_some]
        exact List.getElem_mem _
      obtain ⟨i, h1, h2⟩ := (hmemU _).1 hm
      exact ⟨i, fun _ => ⟨h1, h2⟩⟩
    · exact ⟨0, fun h => absurd h hj⟩
  obtain ⟨f, hf⟩ := Classical.axiom_of_choice hex
  have hlen2 : (bucket n key G.set).length = n := by
    rw [bucket_length_below, hbn]
  refine ⟨⟨?_, ?_⟩, hlen2, p1, f, fun j hj => (hf j hj).1, ?_, ?_⟩
  · refine PtrOk.mk' (by dsimp only; omega) p2 ?_ ?_
    · dsimp only
      rw [← hbn, ← p3]; unfold lastPtr; congr 1; omega
    · intro b hb
      dsimp only at hb ⊢
      rw [(p4 b hb).1, (p4 b hb).2]
      exact below_mono _ _ (by omega)
  · dsimp only
    rw [List.take_of_length_le (by omega)]
    exact (bucket_perm hkn).trans hperm
  · intro j k hjk hk'
    rw [(hf j (by omega)).2, (hf k hk').2]
    rw [List.pairwise_iff_getElem] at hsortU
    have := hsortU j k (by omega) (by omega) hjk
    rwa [List.getD_eq_getElem?_getD, List.getElem?_eq_getElem (by omega), Option.getD_some,
      List.getD_eq_getElem?_getD, List.getElem?_eq_getElem (by omega), Option.getD_some]
  · intro j hj
    obtain ⟨h1, h2⟩ := hf j hj
    show slice (bucket n key G.set) (ptr.getD j 0) (ptr.getD (j + 1) 0) = _
    rw [(p4 j hj).1, (p4 j hj).2, ← h2, bucket_slice _ _ (hP.mem_lt (leader_mem hP hne h1)),
      hfil _ h1]

end Verif.Group
