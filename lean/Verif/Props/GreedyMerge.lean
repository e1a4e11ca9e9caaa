import Verif.Props.Greedy
import Verif.Proof.BlockComps

/-!
# C104: which groups `mergeSmallGroups` joins

The groups are given by their boundaries.  `joined` reads them from left to right: a group that costs at least the
threshold stays; a smaller one goes to the cheaper one of the last group that stayed and the next group.
-/

namespace Verif.Greedy
open Res Csc Super

/-- The last group that stayed, `(last of done)..s`, exists and is cheaper than the next group `e..`, or there is no
next group. -/
def prevCheaper (g : Csc) (done : List Nat) (s e : Nat) (rest : List Nat) : Prop :=
  match done.getLast?, rest with
  | none, _ => False
  | some _, [] => True
  | some b, f :: _ => g.ptr s - g.ptr b < g.ptr f - g.ptr e

instance (g : Csc) (done : List Nat) (s e : Nat) (rest : List Nat) : Decidable (prevCheaper g done s e rest) := by
  unfold prevCheaper
  split <;> infer_instance

/-- The boundaries of the joined groups.  `done` are the starts of the groups that stay, the current group starts in
`s`, and the remaining boundaries are the list. -/
def joined (g : Csc) (th : Int) (done : List Nat) (s : Nat) : List Nat → List Nat
  | [] => done ++ [s]
  | e :: rest =>
    if th ≤ (g.ptr e : Int) - g.ptr s then joined g th (done ++ [s]) e rest
    else if prevCheaper g done s e rest then joined g th done e rest
    else joined g th done s rest

/-- The starts of the groups that are not empty among the first `k`. -/
def starts (a : List Nat) (k : Nat) : List Nat :=
  ((List.range k).filter (fun j => decide (a.getD j 0 < a.getD (j + 1) 0))).map (fun j => a.getD j 0)

theorem starts_succ (a : List Nat) (k : Nat) : starts a (k + 1) =
    starts a k ++ if a.getD k 0 < a.getD (k + 1) 0 then [a.getD k 0] else [] := by
  unfold starts
  rw [List.range_succ, List.filter_append, List.map_append]
  congr 1
  by_cases h : a.getD k 0 < a.getD (k + 1) 0
  · rw [if_pos h, List.filter_cons, if_pos (by simpa using h)]
    rfl
  · rw [if_neg h, List.filter_cons, if_neg (by simpa using h)]
    rfl

theorem starts_congr {a b : List Nat} {k : Nat} (h : ∀ j, j < k → a.getD j 0 = b.getD j 0)
    (hl : 0 < k → (a.getD (k - 1) 0 < a.getD k 0 ↔ b.getD (k - 1) 0 < b.getD k 0)) : starts a k = starts b k := by
  cases k with
  | zero => rfl
  | succ k =>
    have e : starts a k = starts b k := by
      unfold starts
      have : (List.range k).filter (fun j => decide (a.getD j 0 < a.getD (j + 1) 0))
          = (List.range k).filter (fun j => decide (b.getD j 0 < b.getD (j + 1) 0)) := by
        refine List.filter_congr fun j hj => ?_
        rw [List.mem_range] at hj
        rw [h j (by omega), h (j + 1) (by omega)]
      rw [this]
      refine List.map_congr_left fun j hj => ?_
      rw [List.mem_filter, List.mem_range] at hj
      exact h j (by omega)
    have hl := hl (by omega)
    rw [Nat.add_sub_cancel] at hl
    rw [starts_succ, starts_succ, e, h k (by omega)]
    rw [h k (by omega)] at hl
    by_cases c : b.getD k 0 < b.getD (k + 1) 0
    · rw [if_pos c, if_pos (hl.2 c)]
    · rw [if_neg c, if_neg (fun hh => c (hl.1 hh))]

/-- Empty groups at the end add nothing. -/
theorem starts_empty {a : List Nat} {k i : Nat} (hk : k ≤ i) (h : ∀ j, k ≤ j → j ≤ i → a.getD j 0 = a.getD k 0) :
    starts a i = starts a k := by
  induction i with
  | zero =>
    have : k = 0 := by omega
    rw [this]
  | succ i ih =>
    by_cases e : k = i + 1
    · rw [e]
    · rw [starts_succ, if_neg (by rw [h i (by omega) (by omega), h (i + 1) (by omega) (by omega)]; omega),
        List.append_nil]
      exact ih (by omega) (fun j h1 h2 => h j h1 (by omega))

/-- The state of the loop over the groups after `i` groups. -/
structure JInv (g : Csc) (set : List Nat) (m : Nat) (th : Int) (i : Nat) (a : List Nat) (k : Nat) : Prop where
  inv : MInv g.p set g.n m th i a k
  le : a.getD i 0 ≤ set.getD i 0
  rise : 0 < k → a.getD (k - 1) 0 < a.getD k 0
  eq : joined g th (starts a k) (a.getD i 0) (set.drop (i + 1)) = joined g th [] 0 (set.drop 1)

theorem starts_last {a : List Nat} {k : Nat} (h : 0 < k → a.getD (k - 1) 0 < a.getD k 0) :
    (starts a k).getLast? = if k = 0 then none else some (a.getD (k - 1) 0) := by
  cases k with
  | zero => rfl
  | succ k =>
    have := h (by omega)
    rw [Nat.add_sub_cancel] at this
    rw [starts_succ, if_pos this, if_neg (by omega), Nat.add_sub_cancel]
    simp

theorem mergeStep_joined {g : Csc} {set : List Nat} {m : Nat} {th : Int} (hwf : g.WF) (hm : m + 1 = set.length)
    (hst : ∀ j, j < m → set.getD j 0 < set.getD (j + 1) 0)
    (hth : th ≤ (g.p.getD g.n 0 : Int) - g.p.getD 0 0) {i k : Nat} {a : List Nat} (hi : i < m)
    (hJ : JInv g set m th i a k) :
    wp (mergeStep g.p m th i (a, k)) (fun s => JInv g set m th (i + 1) s.1 s.2) := by
  have hc := costs_of_wf hwf
  have h := hJ.inv
  have hinv := mergeStep_inv hc hm hth hi h
  suffices hs : wp (mergeStep g.p m th i (a, k)) (fun s => s.1.getD (i + 1) 0 ≤ set.getD (i + 1) 0 ∧
      (0 < s.2 → s.1.getD (s.2 - 1) 0 < s.1.getD s.2 0) ∧
      joined g th (starts s.1 s.2) (s.1.getD (i + 1) 0) (set.drop (i + 2)) = joined g th [] 0 (set.drop 1)) by
    obtain ⟨s, s1, s2⟩ := wp_iff.1 hinv
    rw [s1, wp_ok] at hs ⊢
    exact ⟨s2, hs.1, hs.2.1, hs.2.2⟩
  have hlen := h.len
  have hk := h.le
  have hle := hJ.le
  have hrise := hJ.rise
  have hnext := h.rest (i + 1) (by omega)
  have hsti := hst i hi
  have hki := h.empty i hk (Nat.le_refl i)
  have heq := hJ.eq
  rw [List.drop_eq_getElem_cons (show i + 1 < set.length by omega), joined] at heq
  rw [← List.getD_eq_getElem _ 0 (show i + 1 < set.length by omega), ← hnext] at heq
  have e1 := cost_some (j := i + 1) (size := m) hc (by omega) (by omega) (show m < a.length by omega)
    (fun j hj => h.le_n hj)
  rw [Nat.add_sub_cancel] at e1
  have hmm := hc.mono _ _ (h.mono i hi) (h.le_n (x := i + 1) (by omega))
  have hlast := starts_last hJ.rise
  unfold mergeStep
  dsimp only
  rw [e1, ok_bind]
  -- the comparison of the two neighbours
  obtain ⟨nc, pc, hnc, hpc, hlt⟩ : ∃ nc pc, cost g.p a m (i + 2) = ok nc ∧ cost g.p a m k = ok pc ∧
      (costLt pc nc = true ↔ prevCheaper g (starts a k) (a.getD i 0) (a.getD (i + 1) 0) (set.drop (i + 2))) := by
    unfold prevCheaper
    rw [hlast]
    by_cases hk0 : k = 0
    · rw [if_pos hk0]
      obtain ⟨nc, hnc⟩ : ∃ nc, cost g.p a m (i + 2) = ok nc := by
        by_cases e : i + 2 ≤ m
        · exact ⟨_, cost_some hc (by omega) e (by omega) (fun j hj => h.le_n hj)⟩
        · exact ⟨none, cost_none (.inr (by omega))⟩
      exact ⟨nc, none, hnc, cost_none (.inl hk0), by simp [costLt]⟩
    · rw [if_neg hk0]
      have hpc := cost_some (j := k) (size := m) hc (by omega) (by omega) (show m < a.length by omega)
        (fun j hj => h.le_n hj)
      by_cases e : i + 2 ≤ m
      · refine ⟨_, _, cost_some hc (by omega) e (by omega) (fun j hj => h.le_n hj), hpc, ?_⟩
        rw [List.drop_eq_getElem_cons (show i + 2 < set.length by omega)]
        rw [← List.getD_eq_getElem _ 0 (show i + 2 < set.length by omega), ← h.rest (i + 2) (by omega)]
        simp only [costLt, decide_eq_true_eq]
        rw [show i + 2 - 1 = i + 1 by omega, hki]
        exact Iff.rfl
      · refine ⟨none, _, cost_none (.inr (by omega)), hpc, ?_⟩
        rw [List.drop_of_length_le (by omega)]
        simp [costLt]
  rw [hnc, ok_bind, hpc, ok_bind]
  by_cases hsmall : ((g.p.getD (a.getD (i + 1) 0) 0 - g.p.getD (a.getD i 0) 0 : Nat) : Int) < th
  · rw [if_pos (by simpa using hsmall)]
    rw [if_neg (by
      show ¬ th ≤ (g.p.getD (a.getD (i + 1) 0) 0 : Int) - g.p.getD (a.getD i 0) 0
      omega)] at heq
    by_cases hl : costLt pc nc = true
    · rw [if_pos hl]
      rw [if_pos (hlt.1 hl)] at heq
      have hk0 : k ≠ 0 := by
        intro hh
        rw [cost_none (.inl hh)] at hpc
        cases hpc
        simp [costLt] at hl
      rw [wp_bind]
      refine wp_mono (gap_spec (a := a) (k := k) (i := i) (by omega) (by omega)) ?_
      rintro a' ⟨_, b2⟩
      rw [wp_ok]
      dsimp only
      have r := hrise (by omega)
      have c1 : a'.getD (i + 1) 0 = a.getD (i + 1) 0 := by rw [b2, if_neg (by omega)]
      have c2 : a'.getD k 0 = a.getD (i + 1) 0 := by rw [b2, if_pos (by omega)]
      have c3 : ∀ j, j < k → a'.getD j 0 = a.getD j 0 := fun j hj => by rw [b2, if_neg (by omega)]
      have c4 := h.mono_le (x := k) (y := i + 1) (by omega) (by omega)
      refine ⟨by rw [c1, hnext], fun _ => ?_, ?_⟩
      · rw [c2, c3 _ (by omega)]
        omega
      · rw [c1, ← heq, starts_congr (a := a') (b := a) c3 (fun _ => ?_)]
        rw [c2, c3 _ (by omega)]
        constructor
        · intro _; exact r
        · intro _; omega
    · rw [if_neg hl, rd_getD 0 (by omega), ok_bind, wr_eq (by omega), ok_bind, wp_ok]
      rw [if_neg (fun hh => hl (hlt.2 hh))] at heq
      dsimp only
      have g1 : ∀ j, j ≠ i + 1 → (a.set (i + 1) (a.getD i 0)).getD j 0 = a.getD j 0 := by
        intro j hj
        rw [getD_set, if_neg (fun hh => hj hh.1.symm)]
      have g2 : (a.set (i + 1) (a.getD i 0)).getD (i + 1) 0 = a.getD i 0 := by
        rw [getD_set, if_pos ⟨rfl, by omega⟩]
      refine ⟨by rw [g2]; omega, fun hk0 => ?_, ?_⟩
      · rw [g1 k (by omega), g1 _ (by omega)]
        exact hrise hk0
      · rw [g2, ← heq, starts_congr (b := a) (fun j hj => g1 j (by omega)) (fun hk0 => ?_)]
        rw [g1 k (by omega), g1 _ (by omega)]
  · rw [if_neg (by simpa using hsmall), wp_ok]
    rw [if_pos (by
      show th ≤ (g.p.getD (a.getD (i + 1) 0) 0 : Int) - g.p.getD (a.getD i 0) 0
      omega)] at heq
    dsimp only
    have hlt' : a.getD i 0 < a.getD (i + 1) 0 := by omega
    refine ⟨by rw [hnext], fun _ => by rw [Nat.add_sub_cancel]; exact hlt', ?_⟩
    rw [← heq, starts_succ, if_pos hlt', starts_empty hk h.empty]

theorem compress_starts {a : List Nat} {m : Nat} (hl : m < a.length) :
    forRange 0 m (fun i out => do
        let x ← rd a i
        let y ← rd a (i + 1)
        if x < y then ok (out ++ [x]) else ok out) [] = ok (starts a m) := by
  have : wp (forRange 0 m (fun i out => do
        let x ← rd a i
        let y ← rd a (i + 1)
        if x < y then ok (out ++ [x]) else ok out) []) (fun o => o = starts a m) := by
    refine forRange_wp (fun i (o : List Nat) => o = starts a i) (Nat.zero_le m) rfl ?_
    rintro i _ _ hi rfl
    rw [rd_getD 0 (by omega), ok_bind, rd_getD 0 (by omega), ok_bind, starts_succ]
    by_cases e : a.getD i 0 < a.getD (i + 1) 0
    · rw [if_pos e, if_pos e, wp_ok]
    · rw [if_neg e, if_neg e, wp_ok, List.append_nil]
  obtain ⟨o, o1, rfl⟩ := wp_iff.1 this
  exact o1

/-- **C104**: the boundaries after `mergeSmallGroups` are exactly those of `joined`: a group that costs less than the
threshold is joined with the cheaper neighbour. -/
theorem C104_merge_cheaper {g : Csc} (hwf : g.WF) (S th : Int) (hth : th ≤ g.ptr g.n) {set ngi : List Nat}
    (hg : groups g.n S g.p g.i = ok (set, ngi)) (h3 : 3 ≤ set.length) :
    ∃ ngi', mergeSmall g.p th set ngi = ok (joined g th [] 0 set.tail, ngi') := by
  obtain ⟨r, r1, r2, r3, r4⟩ := wp_iff.1 (groups_spec (S := S) hwf)
  rw [hg] at r1
  cases r1
  dsimp only at r2 r3 r4
  have hp0 : g.p.getD 0 0 = 0 := hwf.p0
  have hth' : th ≤ (g.p.getD g.n 0 : Int) - g.p.getD 0 0 := by
    rw [hp0]
    show th ≤ (g.ptr g.n : Int) - 0
    omega
  obtain ⟨⟨set', ngi'⟩, m1, m2, m3, m4⟩ := wp_iff.1 (mergeSmall_spec (th := th) (costs_of_wf hwf)
    (⟨r2.ptr, r2.strict, r3, r4⟩ : Groups g.n set ngi) hth')
  refine ⟨ngi', ?_⟩
  have m1' := m1
  unfold mergeSmall at m1'
  obtain ⟨m, hm⟩ : ∃ m, m = set.length - 1 := ⟨_, rfl⟩
  have hptr : PtrOk set m g.n := by rw [hm]; exact r2.ptr
  dsimp only at m1'
  rw [← hm, if_neg (by omega)] at m1'
  have hst : ∀ j, j < m → set.getD j 0 < set.getD (j + 1) 0 := by
    intro j hj
    rw [List.getD_eq_getElem _ _ (by omega), List.getD_eq_getElem _ _ (by omega)]
    exact List.pairwise_iff_getElem.1 r2.strict j (j + 1) _ _ (by omega)
  obtain ⟨⟨a, k⟩, l1, hJ⟩ := wp_iff.1 (forRange_wp (f := mergeStep g.p m th)
    (fun i (s : List Nat × Nat) => JInv g set m th i s.1 s.2) (Nat.zero_le m) (s := (set, 0))
    ⟨⟨rfl, le_refl _, fun _ _ => rfl, hptr.d0, fun j hj => hptr.dmono hj, hptr.dlast, fun j hj => by
        show set.getD j 0 ∈ set
        rw [List.getD_eq_getElem _ _ (by omega)]
        exact List.getElem_mem _, fun j _ hj => by
        have : j = 0 := by omega
        rw [this], by omega, by omega⟩, le_refl _, by omega, by
        show joined g th [] (set.getD 0 0) _ = _
        rw [hptr.d0]⟩ (by
      rintro i ⟨a, k⟩ _ hi hI
      exact mergeStep_joined hwf (by omega) hst hth' hi hI))
  dsimp only at hJ
  have hal := hJ.inv.len
  have heq := hJ.eq
  rw [List.drop_of_length_le (by omega), joined, ← starts_empty hJ.inv.le hJ.inv.empty, List.drop_one] at heq
  have hback : back a = ok (a.getD m 0) := by
    unfold back
    rw [List.getLast?_eq_getElem?, show a.length - 1 = m by omega, List.getElem?_eq_getElem (by omega),
      List.getD_eq_getElem _ _ (by omega)]
  rw [l1, ok_bind] at m1'
  dsimp only at m1'
  rw [compress_starts (by omega), ok_bind, hback, ok_bind, heq] at m1'
  rw [m1]
  obtain ⟨x, _, x2⟩ := Blocked.bind_inv m1'
  cases x2
  rfl

/-- Groups with 4, 1 and 3 entries and the threshold 2: the second group joins the third one. -/
example : groups 5 1 exG.p exG.i = ok ([0, 2, 3, 5], [0, 0, 1, 2, 2]) ∧
    joined exG 2 [] 0 [2, 3, 5] = [0, 2, 5] ∧ joined exG 4 [] 0 [2, 3, 5] = [0, 2, 5] := by decide

end Verif.Greedy
