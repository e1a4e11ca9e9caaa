import Verif.Model.ReadMtx
import Verif.Proof.SparseConv
import Mathlib.Data.List.GetD

/-! # The loop of `read_mtx` finds the runs of equal columns -/

namespace Verif.ReadMtx
open Res

/-- `x` succeeds with `Q`, or is undefined and `P` holds. -/
def wpu {α : Type} (P : Prop) (x : Res α) (Q : α → Prop) : Prop :=
  (∃ a, x = ok a ∧ Q a) ∨ (x = ub ∧ P)

theorem whileF_wpu {σ : Type} {P : Prop} (I : σ → Prop) (m : σ → Nat) {c : σ → Bool}
    {body : σ → Res σ}
    (hstep : ∀ s, I s → c s = true → 0 < m s ∧ wpu P (body s) fun s' => I s' ∧ m s' < m s) :
    ∀ (fuel : Nat) (s : σ), m s ≤ fuel → I s →
      wpu P (whileF fuel (fun s => ok (c s)) body s) fun s => I s ∧ c s = false := by
  intro fuel
  induction fuel with
  | zero =>
    intro s hm hI
    cases hc : c s with
    | false => exact .inl ⟨s, by simp [whileF, hc], hI, hc⟩
    | true => have := (hstep s hI hc).1; omega
  | succ k ih =>
    intro s hm hI
    cases hc : c s with
    | false => exact .inl ⟨s, by simp [whileF, hc], hI, hc⟩
    | true =>
      obtain ⟨h1, h2⟩ := hstep s hI hc
      have e : whileF (k + 1) (fun s => ok (c s)) body s
          = (body s >>= whileF k (fun s => ok (c s)) body) := by simp [whileF, hc]
      rw [e]
      rcases h2 with ⟨s', e', h3, h4⟩ | ⟨e', h3⟩
      · rw [e', ok_bind]; exact ih s' (by omega) h3
      · rw [e']; exact .inr ⟨rfl, h3⟩

/-- A run of equal columns starts at `k`. -/
def isStart (J : List Nat) (k : Nat) : Bool := k = 0 || J.getD k 0 ≠ J.getD (k - 1) 0

/-- The starts of the runs before position `k`. -/
def starts (J : List Nat) (k : Nat) : List Nat := (List.range k).filter (isStart J)

theorem starts_succ (J : List Nat) (k : Nat) :
    starts J (k + 1) = starts J k ++ if isStart J k then [k] else [] := by
  unfold starts
  rw [List.range_succ, List.filter_append]
  congr 1
  cases h : isStart J k <;> simp [h]

theorem starts_length_mono (J : List Nat) {a b : Nat} (h : a ≤ b) :
    (starts J a).length ≤ (starts J b).length := by
  induction b, h using Nat.le_induction with
  | base => exact Nat.le_refl _
  | succ b _ ih => rw [starts_succ, List.length_append]; omega

theorem starts_skip (J : List Nat) {a b : Nat} (h : a ≤ b) (hn : ∀ k, a ≤ k → k < b → isStart J k = false) :
    starts J b = starts J a := by
  induction b, h using Nat.le_induction with
  | base => rfl
  | succ b hab ih =>
    rw [starts_succ, hn b hab (by omega), ih fun k h1 h2 => hn k h1 (by omega)]
    simp

/-- Skipping a run. -/
theorem skip_wp {J : List Nat} {i : Nat} (hi : i < J.length) :
    wp (whileF (J.length + 1) (fun t : Nat × Nat =>
      if t.2 < J.length then do
        let v ← rd J t.2
        ok (decide (v = J.getD i 0))
      else ok false)
    (fun t => ok (t.1 + 1, t.2 + 1)) (i, i + 1)) fun t =>
      i ≤ t.1 ∧ t.1 < J.length ∧ (∀ k, i < k → k ≤ t.1 → isStart J k = false) ∧
      (t.1 + 1 < J.length → isStart J (t.1 + 1) = true) := by
  refine whileF_wp (fun t : Nat × Nat => t.2 = t.1 + 1 ∧ i ≤ t.1 ∧ t.1 < J.length ∧
    (∀ k, i ≤ k → k ≤ t.1 → J.getD k 0 = J.getD i 0)) (fun t => J.length - t.1) ?_ _ _ (by simp; omega)
    ⟨rfl, Nat.le_refl _, hi, fun k h1 h2 => by rw [show k = i by omega]⟩
  rintro ⟨a, b⟩ ⟨h1, h2, h3, h4⟩
  dsimp only at h1 h2 h3 h4 ⊢
  subst h1
  have fin : (a + 1 < J.length → J.getD (a + 1) 0 ≠ J.getD i 0) →
      i ≤ a ∧ a < J.length ∧ (∀ k, i < k → k ≤ a → isStart J k = false) ∧
      (a + 1 < J.length → isStart J (a + 1) = true) := by
    intro hne
    refine ⟨h2, h3, fun k h5 h6 => ?_, fun h5 => ?_⟩
    · unfold isStart
      rw [h4 k (by omega) h6, h4 (k - 1) (by omega) (by omega)]
      simp; omega
    · unfold isStart
      have := hne h5
      rw [show a + 1 - 1 = a by omega, h4 a (by omega) (Nat.le_refl _)]
      simpa using this
  by_cases hb : a + 1 < J.length
  · rw [if_pos hb, rd_getD 0 hb, ok_bind, wp_ok]
    by_cases he : J.getD (a + 1) 0 = J.getD i 0
    · rw [decide_eq_true he, if_pos rfl, wp_ok]
      refine ⟨by omega, ⟨rfl, by omega, hb, fun k h5 h6 => ?_⟩, by dsimp only; omega⟩
      rcases Nat.lt_or_ge a k with h | h
      · rw [show k = a + 1 by dsimp only at h6; omega]; exact he
      · exact h4 k h5 h
    · rw [decide_eq_false he]
      exact fin fun _ => he
  · rw [if_neg hb, wp_ok]
    exact fin fun h => absurd h hb

/-- The state of the outer loop. -/
structure Inv (J : List Nat) (n : Nat) (s : Runs) : Prop where
  le : s.i ≤ J.length
  idx : s.index = (starts J s.i).length
  len : s.p.length = n + 1
  set : ∀ k, k < s.index → s.p.getD k 0 = (starts J s.i).getD k 0
  rest : ∀ k, s.index ≤ k → s.p.getD k 0 = 0
  start : s.i < J.length → isStart J s.i = true

theorem runStep_wpu {J : List Nat} {n : Nat} {s : Runs} (h : Inv J n s) (hi : s.i < J.length) :
    wpu (n + 1 < (starts J J.length).length) (runStep J J.length s) fun s' =>
      Inv J n s' ∧ s.i < s'.i := by
  have hst := h.start hi
  have hs1 : starts J (s.i + 1) = starts J s.i ++ [s.i] := by rw [starts_succ, hst]; rfl
  by_cases hlt : s.index < s.p.length
  · left
    refine wp_iff.1 ?_
    unfold runStep
    rw [wr_eq hlt, ok_bind, rd_getD 0 hi, ok_bind, wp_bind]
    refine wp_mono (skip_wp hi) ?_
    rintro ⟨a, b⟩ ⟨h1, h2, h3, h4⟩
    dsimp only at h1 h2 h3 h4 ⊢
    have hs2 : starts J (a + 1) = starts J s.i ++ [s.i] := by
      rw [← hs1]
      exact starts_skip J (by omega) fun k h5 h6 => h3 k (by omega) (by omega)
    rw [wp_ok]
    refine ⟨⟨by dsimp only; omega, ?_, ?_, ?_, ?_, h4⟩, by dsimp only; omega⟩
    · dsimp only; rw [hs2, List.length_append, h.idx]; rfl
    · dsimp only; rw [List.length_set]; exact h.len
    · intro k hk
      dsimp only at hk ⊢
      rw [hs2, getD_set]
      by_cases e : s.index = k
      · subst e
        rw [if_pos ⟨rfl, hlt⟩, h.idx, List.getD_append_right _ _ _ _ (Nat.le_refl _), Nat.sub_self]; rfl
      · rw [if_neg (fun h => e h.1), h.set k (by omega),
          List.getD_append _ _ _ _ (by have := h.idx; omega)]
    · intro k hk
      dsimp only at hk ⊢
      rw [getD_set, if_neg (by omega), h.rest k (by omega)]
  · right
    refine ⟨?_, ?_⟩
    · unfold runStep
      have : wr s.p s.index s.i = ub := by unfold wr; rw [if_neg hlt]
      rw [this]; rfl
    · have h1 := starts_length_mono J (show s.i + 1 ≤ J.length from hi)
      rw [hs1, List.length_append] at h1
      have h2 := h.idx
      have h3 := h.len
      simp only [List.length_singleton] at h1
      omega

theorem loop_wpu {J : List Nat} {n : Nat} (hn : 0 < n) :
    wpu (n + 1 < (starts J J.length).length)
      (whileF (J.length + 1) (fun s : Runs => ok (decide (s.i < J.length))) (runStep J J.length)
        ⟨0, 0, Merge.allocP n⟩) fun s =>
      s.p.length = n + 1 ∧ (∀ k, k < (starts J J.length).length → s.p.getD k 0 = (starts J J.length).getD k 0) ∧
      (∀ k, (starts J J.length).length ≤ k → s.p.getD k 0 = 0) ∧ (starts J J.length).length ≤ n + 1 := by
  have hp : Merge.allocP n = List.replicate (n + 1) 0 := by unfold Merge.allocP; rw [if_pos hn]
  have hz : ∀ k, (List.replicate (n + 1) 0).getD k 0 = 0 := by
    intro k
    by_cases hk : k < n + 1
    · exact getD_replicate _ _ _ _ hk
    · rw [List.getD_eq_getElem?_getD, List.getElem?_eq_none (by simp; omega)]; rfl
  have h := whileF_wpu (P := n + 1 < (starts J J.length).length)
    (fun s => Inv J n s ∧ s.index ≤ n + 1) (fun s => J.length - s.i)
    (c := fun s => decide (s.i < J.length)) (body := runStep J J.length) (by
      rintro s ⟨hI, hx⟩ hc
      have hc := of_decide_eq_true hc
      refine ⟨by omega, ?_⟩
      rcases runStep_wpu hI hc with ⟨s', e, h1, h2⟩ | h'
      · refine .inl ⟨s', e, ⟨h1, ?_⟩, by omega⟩
        by_contra hx'
        have : s.index < s.p.length := by
          by_contra hge
          have : runStep J J.length s = ub := by
            unfold runStep
            have : wr s.p s.index s.i = ub := by unfold wr; rw [if_neg hge]
            rw [this]; rfl
          rw [this] at e; cases e
        have hidx : s'.index = s.index + 1 := by
          unfold runStep at e
          rw [wr_eq this, ok_bind, rd_getD 0 hc, ok_bind] at e
          obtain ⟨t, et, -⟩ := wp_iff.1 (skip_wp hc)
          rw [et, ok_bind] at e
          rw [← Res.ok.inj e]
        have := hI.len
        omega
      · exact .inr h') (J.length + 1) ⟨0, 0, Merge.allocP n⟩ (by dsimp only; omega)
    ⟨⟨by simp, by simp [starts], by rw [hp]; simp, fun k hk => absurd hk (by simp),
      fun k _ => by rw [hp]; exact hz k, fun _ => by simp [isStart]⟩, by simp⟩
  rcases h with ⟨s, e, ⟨h1, h3⟩, h2⟩ | h
  · refine .inl ⟨s, e, h1.len, ?_, ?_, ?_⟩
    all_goals
      have hi : s.i = J.length := by
        have := of_decide_eq_false h2
        have := h1.le
        omega
      have hidx := h1.idx
      rw [hi] at hidx
    · intro k hk
      have := h1.set k (by omega)
      rwa [hi] at this
    · intro k hk
      exact h1.rest k (by omega)
    · omega
  · exact .inr h

/-! ### Sorted columns -/

theorem sorted_below {l : List Nat} (hs : l.Pairwise (· ≤ ·)) (c : Nat) :
    ∀ k, k < l.length → (l.getD k 0 < c ↔ k < l.countP fun a => a < c) := by
  induction l with
  | nil => intro k hk; simp at hk
  | cons a t ih =>
    rw [List.pairwise_cons] at hs
    intro k hk
    rw [List.countP_cons]
    by_cases ha : a < c
    · simp only [ha, decide_true, if_true]
      cases k with
      | zero => simpa using ha
      | succ k =>
        have := ih hs.2 k (by simpa using hk)
        rw [List.getD_cons_succ, this]; omega
    · have hz : t.countP (fun a => decide (a < c)) = 0 := by
        rw [List.countP_eq_zero]
        intro b hb
        have := hs.1 b hb
        simp; omega
      rw [hz]
      simp only [ha, decide_false, Bool.false_eq_true, if_false]
      constructor
      · intro h
        cases k with
        | zero => exact absurd h ha
        | succ k =>
          rw [List.getD_cons_succ] at h
          have hk' : k < t.length := by simpa using hk
          have := hs.1 _ (List.getElem_mem hk')
          rw [List.getD_eq_getElem _ _ hk'] at h
          omega
      · omega

theorem sorted_le {l : List Nat} (hs : l.Pairwise (· ≤ ·)) {a b : Nat} (hab : a ≤ b) (hb : b < l.length) :
    l.getD a 0 ≤ l.getD b 0 := by
  rcases Nat.eq_or_lt_of_le hab with rfl | h
  · exact Nat.le_refl _
  · rw [List.getD_eq_getElem _ _ hb, List.getD_eq_getElem _ _ (by omega)]
    exact List.pairwise_iff_getElem.1 hs a b (by omega) hb h

theorem mem_starts {J : List Nat} {k : Nat} : k ∈ starts J J.length ↔ k < J.length ∧ isStart J k = true := by
  unfold starts
  rw [List.mem_filter, List.mem_range]

/-- In a sorted list, the start of a run is the number of smaller columns. -/
theorem start_below {J : List Nat} (hs : J.Pairwise (· ≤ ·)) {k : Nat} (hk : k < J.length) :
    isStart J k = true ↔ (J.countP fun a => a < J.getD k 0) = k := by
  have h1 := sorted_below hs (J.getD k 0) k hk
  unfold isStart
  simp only [Bool.or_eq_true, decide_eq_true_eq]
  constructor
  · intro h
    rcases Nat.eq_zero_or_pos k with rfl | h0
    · have := h1.not
      simp only [Nat.lt_irrefl, not_false_eq_true, true_iff] at this
      omega
    · have h2 := sorted_below hs (J.getD k 0) (k - 1) (by omega)
      have h3 := sorted_le hs (show k - 1 ≤ k by omega) hk
      rcases h with h | h
      · omega
      · have := h2.1 (by omega)
        have := h1.not.1 (by omega)
        omega
  · intro h
    rcases Nat.eq_zero_or_pos k with rfl | h0
    · exact .inl rfl
    · right
      have h2 := (sorted_below hs (J.getD k 0) (k - 1) (by omega)).2 (by omega)
      intro e
      omega

/-- With sorted columns the runs are the columns that occur. -/
theorem starts_all {J : List Nat} {n : Nat} (hs : J.Pairwise (· ≤ ·)) (hlt : ∀ c ∈ J, c < n)
    (hall : ∀ c, c < n → c ∈ J) :
    starts J J.length = (List.range n).map fun c => J.countP fun a => a < c := by
  have hpos : ∀ c, c < n → (J.countP fun a => a < c) < J.length ∧ J.getD (J.countP fun a => a < c) 0 = c := by
    intro c hc
    obtain ⟨k, hk, e⟩ := List.getElem_of_mem (hall c hc)
    have ek : J.getD k 0 = c := by rw [List.getD_eq_getElem _ _ hk, e]
    have h1 := (sorted_below hs c k hk).not.1 (by omega)
    have h2 : (J.countP fun a => a < c) < J.length := by omega
    refine ⟨h2, ?_⟩
    have h3 := (sorted_below hs c _ h2).not.2 (by omega)
    have h4 := sorted_le hs (show (J.countP fun a => a < c) ≤ k by omega) hk
    omega
  have hmono : ∀ a b, a < b → b < n → (J.countP fun x => x < a) < (J.countP fun x => x < b) := by
    intro a b hab hb
    obtain ⟨h1, h2⟩ := hpos a (by omega)
    exact (sorted_below hs b _ h1).1 (by omega)
  have hp1 : (starts J J.length).Pairwise (· < ·) := List.pairwise_lt_range.filter _
  have hp2 : ((List.range n).map fun c => J.countP fun a => a < c).Pairwise (· < ·) := by
    rw [List.pairwise_map]
    refine List.pairwise_lt_range.imp_of_mem ?_
    intro a b _ hb hab
    exact hmono a b hab (List.mem_range.1 hb)
  refine List.Perm.eq_of_pairwise (le := (· < ·)) (fun a b _ _ h1 h2 => by omega) hp1 hp2 ?_
  refine (List.perm_ext_iff_of_nodup (hp1.imp fun h => by omega) (hp2.imp fun h => by omega)).2 ?_
  intro k
  rw [mem_starts, List.mem_map]
  constructor
  · rintro ⟨hk, h1⟩
    refine ⟨J.getD k 0, List.mem_range.2 (hlt _ ?_), (start_below hs hk).1 h1⟩
    rw [List.getD_eq_getElem _ _ hk]; exact List.getElem_mem hk
  · rintro ⟨c, hc, rfl⟩
    obtain ⟨h1, h2⟩ := hpos c (List.mem_range.1 hc)
    refine ⟨h1, (start_below hs h1).2 ?_⟩
    simp only [h2]

end Verif.ReadMtx
