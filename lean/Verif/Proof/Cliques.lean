import Verif.Model.Sparsify
import Verif.Proof.GroupDag

/-!
# Clique detection of `partialSparsification`
-/

namespace Verif.Sparsify
open Res
variable {g : Csc}

/-- The columns `a, ..., b-1` are tails of column `a`. -/
structure Run (g : Csc) (a b : Nat) : Prop where
  le : b ≤ g.n
  tail : ∀ j, a ≤ j → j < b → g.col j = (g.col a).drop (j - a)

theorem col_ne_nil (hf : g.DiagFirst) {u : Nat} (hu : u < g.n) : 0 < (g.col u).length := by
  have := hf u hu
  cases h : g.col u with
  | nil => rw [h] at this; cases this
  | cons a l => simp

theorem getElem?_col (hg : g.WF) {u k : Nat} (hu : u < g.n) (hk : k < g.ptr (u + 1) - g.ptr u) :
    (g.col u)[k]? = some (g.idx (g.ptr u + k)) := by
  unfold Csc.col Csc.idx
  rw [List.getElem?_take, if_pos hk, List.getElem?_drop]
  have h1 := hg.ptr_le (a := u + 1) hu
  exact getElem?_getD 0 (by omega)

theorem sameTail_wp (hg : g.WF) {first last : Nat} (hl : last < g.n) (hfl : first < last)
    (hlen : (g.ptr (first + 1) : Int) - g.ptr first - (last - first : Nat)
      = (g.ptr (last + 1) : Int) - g.ptr last) :
    wp (sameTail g.i (g.ptr first) (g.ptr last) (g.ptr (last + 1) - g.ptr last) (last - first))
      fun b => b = true → g.col last = (g.col first).drop (last - first) := by
  unfold sameTail
  rw [wp_bind]
  have hm1 := hg.mono first (by omega)
  have hm2 := hg.mono last hl
  have hb1 := hg.ptr_le (a := first + 1) (by omega)
  have hb2 := hg.ptr_le (a := last + 1) (by omega)
  refine wp_mono (forRangeB_wp
    (fun k (_ : Unit) => ∀ r, r < k → g.idx (g.ptr first + r + (last - first)) = g.idx (g.ptr last + r))
    (fun b => b = false) (Nat.zero_le _) (by intro r hr; omega) ?_) ?_
  · intro k _ _ hk ih
    have e1 : rd g.i (g.ptr first + k + (last - first)) =
        ok (g.idx (g.ptr first + k + (last - first))) := rd_getD 0 (by omega)
    have e2 : rd g.i (g.ptr last + k) = ok (g.idx (g.ptr last + k)) := rd_getD 0 (by omega)
    rw [e1, ok_bind, e2, ok_bind]
    by_cases he : g.idx (g.ptr first + k + (last - first)) = g.idx (g.ptr last + k)
    · rw [if_neg (by simpa using he), wp_ok]
      intro r hr
      rcases Nat.lt_or_ge r k with h | h
      · exact ih r h
      · have : r = k := by omega
        subst this; exact he
    · rw [if_pos he, wp_ok]; exact rfl
  · rintro (_ | b) hr
    · simp only [Ctl.post_next] at hr
      simp only [wp_ok]
      intro _
      apply List.ext_getElem?
      intro k
      rw [List.getElem?_drop]
      rcases Nat.lt_or_ge k (g.ptr (last + 1) - g.ptr last) with hk | hk
      · rw [getElem?_col hg hl hk, getElem?_col hg (by omega) (by omega), ← hr k hk]
        congr 2; omega
      · rw [List.getElem?_eq_none (by rw [hg.col_length hl]; omega),
          List.getElem?_eq_none (by rw [hg.col_length (by omega)]; omega)]
    · simp only [Ctl.post_brk] at hr
      simp only [wp_ok]
      intro h; rw [hr] at h; cases h

theorem grow_wp (hg : g.WF) (hf : g.DiagFirst) (debug : Bool) {first : Nat} (h : first < g.n) :
    wp (loopF (g.n + 1) (growStep debug g.n g.p g.i first) (1, first + 1))
      fun w => 0 < w ∧ first + w ≤ g.n ∧ Run g first (first + w) := by
  refine loopF_wp
    (fun (s : Nat × Nat) => 0 < s.1 ∧ s.2 = first + s.1 ∧ s.2 ≤ g.n ∧ Run g first s.2)
    (fun s => g.n - s.2) ?_ _ _ (by dsimp only; omega) ?_
  · rintro ⟨w, last⟩ ⟨h1, h2, h3, h4⟩
    dsimp only at h1 h2 h3 h4
    unfold growStep
    dsimp only
    have hbrk : 0 < w ∧ first + w ≤ g.n ∧ Run g first (first + w) := by
      refine ⟨h1, by omega, ?_⟩
      rw [← h2]; exact h4
    split
    · next hc =>
      rw [hg.rd_p (by omega), ok_bind, hg.rd_p (by omega), ok_bind, hg.rd_p (by omega), ok_bind,
        hg.rd_p (by omega), ok_bind]
      split
      · exact hbrk
      · next hlen =>
        push Not at hlen
        have hne := col_ne_nil hf hc.1
        rw [hg.col_length hc.1] at hne
        rw [if_neg (by rintro ⟨_, h⟩; omega), wp_bind]
        refine wp_mono (sameTail_wp hg hc.1 (by omega) hlen) ?_
        intro b hb
        cases b with
        | false => exact hbrk
        | true =>
          have hcol := hb rfl
          simp only [if_true, wp_ok, Ctl.post_next]
          refine ⟨⟨by omega, by omega, by omega, by omega, ?_⟩, by omega⟩
          intro j hj1 hj2
          rcases Nat.lt_or_ge j last with hj | hj
          · exact h4.tail j hj1 hj
          · have : j = last := by omega
            subst this; exact hcol
    · exact hbrk
  · refine ⟨by omega, rfl, by dsimp only; omega, by dsimp only; omega, ?_⟩
    intro j h1 h2
    have : j = first := by dsimp only at h2; omega
    subst this; simp

/-- A list of cliques that starts with column `s`; all start before column `e`. -/
structure Cliques (g : Csc) (s e : Nat) (cp : List Nat) : Prop where
  first : cp.getD 0 0 = s
  pos : 0 < cp.length
  lt : ∀ k, k + 1 < cp.length → cp.getD k 0 < cp.getD (k + 1) 0
  run : ∀ k, k + 1 < cp.length → Run g (cp.getD k 0) (cp.getD (k + 1) 0)
  before : ∀ k, k + 1 < cp.length → cp.getD k 0 < e

theorem Cliques.ge {s e : Nat} {cp : List Nat} (h : Cliques g s e cp) :
    ∀ k, k < cp.length → s + k ≤ cp.getD k 0 := by
  intro k
  induction k with
  | zero => intro _; rw [h.first]; omega
  | succ k ih =>
    intro hk
    have := ih (by omega)
    have := h.lt k hk
    omega

theorem threadCliques_wp (hg : g.WF) (hf : g.DiagFirst) (debug : Bool) {bins tid : Nat}
    (he : endCol g.n bins tid ≤ g.n) :
    wp (threadCliques debug g.n g.p g.i bins tid) fun cp =>
      Cliques g (startCol g.n bins tid) (endCol g.n bins tid) cp ∧
      endCol g.n bins tid ≤ cp.getD (cp.length - 1) 0 := by
  unfold threadCliques
  generalize startCol g.n bins tid = s
  generalize endCol g.n bins tid = e at he
  rw [wp_bind]
  refine whileF_wp
    (fun (x : Nat × List Nat) => Cliques g s e x.2 ∧ x.2.getD (x.2.length - 1) 0 = x.1)
    (fun x => e - x.1) ?_ _ _ (le_refl _) ?_
  · rintro ⟨col, cp⟩ ⟨h1, h2⟩
    dsimp only at h1 h2
    rw [wp_ok]
    by_cases hc : col < e
    · simp only [hc, decide_true, if_true]
      refine ⟨by omega, ?_⟩
      unfold cliqueStep
      dsimp only
      rw [wp_bind]
      refine wp_mono (grow_wp hg hf debug (by omega)) ?_
      rintro w ⟨hw0, hwn, hrun⟩
      have hpos := h1.pos
      have hnew : (Cliques g s e (cp ++ [col + w]) ∧
          (cp ++ [col + w]).getD ((cp ++ [col + w]).length - 1) 0 = col + w) ∧
          e - (col + w) < e - col := by
        have hlast : (cp ++ [col + w]).getD cp.length 0 = col + w := by
          rw [getD_append_right _ _ _ (le_refl _)]; simp
        have hcases : ∀ k, k + 1 < (cp ++ [col + w]).length →
            (k + 1 < cp.length ∧ (cp ++ [col + w]).getD k 0 = cp.getD k 0 ∧
              (cp ++ [col + w]).getD (k + 1) 0 = cp.getD (k + 1) 0) ∨
            ((cp ++ [col + w]).getD k 0 = col ∧ (cp ++ [col + w]).getD (k + 1) 0 = col + w) := by
          intro k hk
          rw [List.length_append, List.length_singleton] at hk
          rcases Nat.lt_or_ge (k + 1) cp.length with h | h
          · left
            rw [getD_append_left _ _ _ (by omega), getD_append_left _ _ _ h]
            exact ⟨h, rfl, rfl⟩
          · right
            have hk' : k = cp.length - 1 := by omega
            rw [getD_append_left _ _ _ (by omega), hk', h2]
            refine ⟨rfl, ?_⟩
            rw [show cp.length - 1 + 1 = cp.length by omega, hlast]
        refine ⟨⟨⟨?_, by simp, ?_, ?_, ?_⟩, ?_⟩, by omega⟩
        · rw [getD_append_left _ _ _ hpos]; exact h1.first
        · intro k hk
          rcases hcases k hk with ⟨h, e1, e2⟩ | ⟨e1, e2⟩
          · rw [e1, e2]; exact h1.lt k h
          · rw [e1, e2]; omega
        · intro k hk
          rcases hcases k hk with ⟨h, e1, e2⟩ | ⟨e1, e2⟩
          · rw [e1, e2]; exact h1.run k h
          · rw [e1, e2]; exact hrun
        · intro k hk
          rcases hcases k hk with ⟨h, e1, e2⟩ | ⟨e1, e2⟩
          · rw [e1]; exact h1.before k h
          · rw [e1]; omega
        · rw [show (cp ++ [col + w]).length - 1 = cp.length by simp]; exact hlast
      cases debug with
      | false => simpa using hnew
      | true =>
        rw [if_pos rfl, if_neg (by omega), hg.rd_p (by omega), ok_bind, hg.rd_p (by omega), ok_bind]
        have hl := hrun.tail (col + w - 1) (by omega) (by omega)
        have hne := col_ne_nil hf (u := col + w - 1) (by omega)
        rw [hl, List.length_drop, hg.col_length (by omega)] at hne
        rw [if_neg (by omega)]
        exact hnew
    · simp only [hc, decide_false]
      simp only [Bool.false_eq_true, if_false, wp_ok]
      exact ⟨h1, by rw [h2]; omega⟩
  · dsimp only
    refine ⟨⟨by simp, by simp, ?_, ?_, ?_⟩, by simp⟩
    all_goals intro k hk; simp at hk

/-- Which writes one thread performs. -/
theorem cliqueWrites_wp (start : Nat) (cp : List Nat)
    (hlt : ∀ k, k + 1 < cp.length → cp.getD k 0 < cp.getD (k + 1) 0) :
    wp (cliqueWrites start cp) fun ws => ∀ j c, (j, c) ∈ ws ↔
      ∃ k, k + 1 < cp.length ∧ c = k + start ∧ cp.getD k 0 ≤ j ∧ j < cp.getD (k + 1) 0 := by
  unfold cliqueWrites
  refine forRange_wp' (fun i (acc : List (Nat × Nat)) => ∀ j c, (j, c) ∈ acc ↔
      ∃ k, k < i ∧ c = k + start ∧ cp.getD k 0 ≤ j ∧ j < cp.getD (k + 1) 0) (Nat.zero_le _) ?_ ?_ ?_
  · intro j c
    simp
  · intro i acc _ hi ih
    rw [rd_getD 0 (by omega), ok_bind, rd_getD 0 (by omega), ok_bind]
    rw [forRange_append (fun j => [(j, i + start)]) (le_of_lt (hlt i (by omega)))
      (fun _ _ _ _ => rfl), wp_ok]
    intro j c
    rw [List.mem_append, ih, List.mem_flatMap]
    constructor
    · rintro (⟨k, h1, h2⟩ | ⟨j', h1, h2⟩)
      · exact ⟨k, by omega, h2⟩
      · rw [List.mem_singleton] at h2
        cases h2
        rw [List.mem_range'_1] at h1
        exact ⟨i, by omega, rfl, by omega, by omega⟩
    · rintro ⟨k, h1, h2, h3, h4⟩
      rcases Nat.lt_or_ge k i with h | h
      · exact Or.inl ⟨k, h, h2, h3, h4⟩
      · have : k = i := by omega
        subst this
        right
        refine ⟨j, ?_, by rw [h2]; simp⟩
        rw [List.mem_range'_1]; omega
  · intro ws h j c
    rw [h]
    constructor
    · rintro ⟨k, h1, h2⟩; exact ⟨k, by omega, h2⟩
    · rintro ⟨k, h1, h2⟩; exact ⟨k, by omega, h2⟩

/-- What all orders of the writes of all threads have in common. -/
structure WritesOk (g : Csc) (ws : List (Nat × Nat)) : Prop where
  range : ∀ w ∈ ws, w.1 < g.n
  all : ∀ j, j < g.n → ∃ c, (j, c) ∈ ws
  run : ∀ c, ∃ a b, Run g a b ∧ ∀ j, (j, c) ∈ ws → a ≤ j ∧ j < b
  zero : ∀ c, (0, c) ∈ ws → c = 0

theorem WritesOk.perm {ws ws' : List (Nat × Nat)} (h : WritesOk g ws) (hp : ws'.Perm ws) :
    WritesOk g ws' := by
  refine ⟨fun w hw => h.range w (hp.mem_iff.1 hw), ?_, ?_, fun c hc => h.zero c (hp.mem_iff.1 hc)⟩
  · intro j hj
    obtain ⟨c, hc⟩ := h.all j hj
    exact ⟨c, hp.mem_iff.2 hc⟩
  · intro c
    obtain ⟨a, b, h1, h2⟩ := h.run c
    exact ⟨a, b, h1, fun j hj => h2 j (hp.mem_iff.1 hj)⟩

theorem startCol_le (n bins : Nat) {t : Nat} (ht : t ≤ bins) : startCol n bins t ≤ n := by
  unfold startCol
  calc n / bins * t ≤ n / bins * bins := Nat.mul_le_mul_left _ ht
    _ ≤ n := Nat.div_mul_le_self n bins

theorem endCol_le (n bins : Nat) {t : Nat} (ht : t < bins) : endCol n bins t ≤ n := by
  unfold endCol
  split
  · exact le_refl _
  · exact startCol_le n bins (t := t + 1) (by omega)

theorem start_le_start (n bins : Nat) {s t : Nat} (h : s ≤ t) : startCol n bins s ≤ startCol n bins t :=
  Nat.mul_le_mul_left _ h

/-- The columns of different threads do not overlap. -/
theorem end_le_start (n bins : Nat) {s t : Nat} (h : s < t) (ht : t < bins) :
    endCol n bins s ≤ startCol n bins t := by
  unfold endCol
  rw [if_neg (by omega)]
  exact start_le_start n bins (s := s + 1) h

theorem allWrites_wp (hg : g.WF) (hf : g.DiagFirst) (debug : Bool) {bins : Nat} (hb : 0 < bins) :
    wp (allWrites debug g.n g.p g.i bins (List.range bins)) (WritesOk g) := by
  unfold allWrites
  have h := forEach_wp (f := fun tid acc => do
      let cp ← threadCliques debug g.n g.p g.i bins tid
      let ws ← cliqueWrites (startCol g.n bins tid) cp
      ok (acc ++ ws))
    (fun pre (acc : List (Nat × Nat)) => ∃ C : Nat → List Nat,
      (∀ t, t < pre.length → Cliques g (startCol g.n bins t) (endCol g.n bins t) (C t) ∧
        endCol g.n bins t ≤ (C t).getD ((C t).length - 1) 0) ∧
      ∀ j c, (j, c) ∈ acc ↔ ∃ t k, t < pre.length ∧ k + 1 < (C t).length ∧
        c = k + startCol g.n bins t ∧ (C t).getD k 0 ≤ j ∧ j < (C t).getD (k + 1) 0)
    (List.range bins) [] [] ⟨fun _ => [], by simp, by simp⟩ ?_
  · refine wp_mono h ?_
    rintro ws ⟨C, hC, hw⟩
    rw [List.nil_append, List.length_range] at hC hw
    refine ⟨?_, ?_, ?_, ?_⟩
    · rintro ⟨j, c⟩ hm
      obtain ⟨t, k, ht, hk, _, h1, h2⟩ := (hw j c).1 hm
      have := ((hC t ht).1.run k hk).le
      dsimp only
      omega
    · intro j hj
      -- the thread whose columns contain `j`
      have ht : ∃ t, t < bins ∧ startCol g.n bins t ≤ j ∧ j < endCol g.n bins t := by
        have : ∀ m, m < bins → j < endCol g.n bins m →
            ∃ t, t < bins ∧ startCol g.n bins t ≤ j ∧ j < endCol g.n bins t := by
          intro m
          induction m with
          | zero => intro h1 h2; exact ⟨0, h1, by simp [startCol], h2⟩
          | succ m ih =>
            intro h1 h2
            by_cases h3 : startCol g.n bins (m + 1) ≤ j
            · exact ⟨m + 1, h1, h3, h2⟩
            · refine ih (by omega) ?_
              unfold endCol
              rw [if_neg (by omega)]
              unfold startCol at h3
              omega
        refine this (bins - 1) (by omega) ?_
        unfold endCol
        rw [if_pos (by omega)]; exact hj
      obtain ⟨t, ht, h1, h2⟩ := ht
      obtain ⟨hc, hend⟩ := hC t ht
      have : ∀ m, m < (C t).length → j < (C t).getD m 0 →
          ∃ k, k + 1 < (C t).length ∧ (C t).getD k 0 ≤ j ∧ j < (C t).getD (k + 1) 0 := by
        intro m
        induction m with
        | zero => intro _ h4; rw [hc.first] at h4; omega
        | succ m ih =>
          intro h3 h4
          by_cases h5 : (C t).getD m 0 ≤ j
          · exact ⟨m, h3, h5, h4⟩
          · exact ih (by omega) (by omega)
      have hpos := hc.pos
      obtain ⟨k, h3, h4, h5⟩ := this ((C t).length - 1) (by omega) (by omega)
      exact ⟨k + startCol g.n bins t, (hw _ _).2 ⟨t, k, ht, h3, rfl, h4, h5⟩⟩
    · intro c
      by_cases hex : ∃ j, (j, c) ∈ ws
      · obtain ⟨j, hj⟩ := hex
        obtain ⟨t, k, ht, hk, hc, _, _⟩ := (hw j c).1 hj
        refine ⟨(C t).getD k 0, (C t).getD (k + 1) 0, (hC t ht).1.run k hk, ?_⟩
        intro j' hj'
        obtain ⟨t', k', ht', hk', hc', h1', h2'⟩ := (hw j' c).1 hj'
        -- the number determines the thread
        have r1 := (hC t ht).1.ge k (by omega)
        have r2 := (hC t ht).1.before k hk
        have r3 := (hC t' ht').1.ge k' (by omega)
        have r4 := (hC t' ht').1.before k' hk'
        have htt : t = t' := by
          rcases Nat.lt_trichotomy t t' with h | h | h
          · have := end_le_start g.n bins h ht'; omega
          · exact h
          · have := end_le_start g.n bins h ht; omega
        subst htt
        have : k = k' := by omega
        subst this
        exact ⟨h1', h2'⟩
      · exact ⟨0, 0, ⟨by omega, fun j _ h => by omega⟩, fun j hj => absurd ⟨j, hj⟩ hex⟩
    · intro c hc
      obtain ⟨t, k, ht, hk, h0, h1, h2⟩ := (hw 0 c).1 hc
      have := (hC t ht).1.ge k (by omega)
      omega
  · rintro pre a post acc he ⟨C, hC, hw⟩
    rw [List.nil_append] at he
    have ha : a = pre.length := by
      have h2 := congrArg (·[pre.length]?) he
      simp only [List.getElem?_append_right (le_refl _), Nat.sub_self, List.getElem?_cons_zero] at h2
      rw [List.getElem?_range (by
        have := congrArg List.length he; simp at this; omega)] at h2
      simpa using h2.symm
    have hab : a < bins := List.mem_range.1 (he ▸ by simp)
    rw [wp_bind]
    refine wp_mono (threadCliques_wp hg hf debug (endCol_le g.n bins hab)) ?_
    rintro cp ⟨h1, h2⟩
    rw [wp_bind]
    refine wp_mono (cliqueWrites_wp _ cp h1.lt) ?_
    intro ws hws
    rw [wp_ok]
    refine ⟨fun t => if t = a then cp else C t, ?_, ?_⟩
    · intro t ht
      rw [List.length_append, List.length_singleton] at ht
      beta_reduce
      by_cases hta : t = a
      · rw [if_pos hta, hta]; exact ⟨h1, h2⟩
      · rw [if_neg hta]; exact hC t (by omega)
    · intro j c
      rw [List.mem_append, hw, hws, List.length_append, List.length_singleton]
      constructor
      · rintro (⟨t, k, h3, h4⟩ | ⟨k, h3, h4⟩)
        · refine ⟨t, k, by omega, ?_⟩
          beta_reduce
          rw [if_neg (by omega)]; exact h4
        · refine ⟨a, k, by omega, ?_⟩
          beta_reduce
          rw [if_pos rfl]; exact ⟨h3, h4⟩
      · rintro ⟨t, k, h3, h4⟩
        beta_reduce at h4
        by_cases hta : t = a
        · rw [if_pos hta, hta] at h4
          right; exact ⟨k, h4⟩
        · rw [if_neg hta] at h4
          left; exact ⟨t, k, by omega, h4⟩

/-- Every node ends up with a number that some thread wrote for it. -/
theorem applyWrites_wp {ws : List (Nat × Nat)} (h : WritesOk g ws) :
    wp (applyWrites g.n ws) fun nc => nc.length = g.n ∧ ∀ j, j < g.n → (j, nc.getD j 0) ∈ ws := by
  unfold applyWrites
  have := forEach_wp (f := fun (w : Nat × Nat) nc => wr nc w.1 w.2)
    (fun pre (nc : List Nat) => nc.length = g.n ∧
      ∀ j, (∃ c, (j, c) ∈ pre) → (j, nc.getD j 0) ∈ pre) ws [] (List.replicate g.n 0)
    ⟨by simp, by simp⟩ ?_
  · refine wp_mono this ?_
    rintro nc ⟨h1, h2⟩
    exact ⟨h1, fun j hj => h2 j (h.all j hj)⟩
  · rintro pre ⟨a, v⟩ post nc he ⟨h1, h2⟩
    rw [List.nil_append] at he
    have ha : a < g.n := h.range (a, v) (by rw [he]; simp)
    dsimp only
    rw [wr_eq (by omega), wp_ok]
    refine ⟨by simpa using h1, ?_⟩
    rintro j ⟨c, hc⟩
    rw [getD_set]
    by_cases haj : a = j
    · rw [if_pos ⟨haj, by omega⟩, haj]; simp
    · rw [if_neg (fun h => haj h.1)]
      rw [List.mem_append] at hc ⊢
      rcases hc with hc | hc
      · exact Or.inl (h2 j ⟨c, hc⟩)
      · rw [List.mem_singleton] at hc; cases hc; exact absurd rfl haj

/-- Consecutive blocks of columns. -/
structure BlocksOk (g : Csc) (cp : List Nat) (n : Nat) : Prop where
  len : 2 ≤ cp.length
  first : cp.getD 0 0 = 0
  last : cp.getD (cp.length - 1) 0 = n
  lt : ∀ k, k + 1 < cp.length → cp.getD k 0 < cp.getD (k + 1) 0
  run : ∀ k, k + 1 < cp.length → Run g (cp.getD k 0) (cp.getD (k + 1) 0)

theorem cliquePtr_wp {ws : List (Nat × Nat)} (h : WritesOk g ws) (hn : 0 < g.n) (debug : Bool)
    {nc : List Nat} (hl : nc.length = g.n) (hm : ∀ j, j < g.n → (j, nc.getD j 0) ∈ ws) :
    wp (cliquePtr debug g.n nc) fun cp => BlocksOk g cp g.n := by
  unfold cliquePtr
  rw [wp_bind]
  have hrun : ∀ a b, b ≤ g.n → (∀ k, a ≤ k → k < b → nc.getD k 0 = nc.getD a 0) → Run g a b := by
    intro a b hb hk
    refine ⟨hb, ?_⟩
    intro j h1 h2
    obtain ⟨x, y, hr, hxy⟩ := h.run (nc.getD a 0)
    have ha := hxy a (hm a (by omega))
    have hj := hxy j (by have := hm j (by omega); rw [hk j h1 h2] at this; exact this)
    rw [hr.tail j hj.1 hj.2, hr.tail a ha.1 ha.2, List.drop_drop]
    congr 1; omega
  have hfe := forEach_wp (f := fun i (s : Nat × Nat × List Nat) =>
      ok (i, s.2.1 + 1, if i ≠ s.1 then s.2.2 ++ [s.2.1] else s.2.2))
    (fun pre (s : Nat × Nat × List Nat) => s.2.1 = pre.length ∧ 0 < s.2.2.length ∧
      s.2.2.getD 0 0 = 0 ∧ (pre = [] → s.2.2.length = 1 ∧ s.1 = 0) ∧
      (pre ≠ [] → s.2.2.getD (s.2.2.length - 1) 0 < pre.length ∧
        ∀ k, s.2.2.getD (s.2.2.length - 1) 0 ≤ k → k < pre.length → nc.getD k 0 = s.1) ∧
      (∀ k, k + 1 < s.2.2.length → s.2.2.getD k 0 < s.2.2.getD (k + 1) 0) ∧
      (∀ k, k + 1 < s.2.2.length → Run g (s.2.2.getD k 0) (s.2.2.getD (k + 1) 0)))
    nc [] (0, 0, [0]) ?_ ?_
  · refine wp_mono hfe ?_
    rintro ⟨b, cnt, cp⟩ ⟨h1, h2, h3, h4, h5, h6, h7⟩
    rw [List.nil_append] at h1 h4 h5
    dsimp only at h1 h2 h3 h4 h5 h6 h7 ⊢
    have hne : nc ≠ [] := by intro hc; rw [hc] at hl; simp at hl; omega
    obtain ⟨h5a, h5b⟩ := h5 hne
    have hlast : (cp ++ [cnt]).getD cp.length 0 = cnt := by
      rw [getD_append_right _ _ _ (le_refl _)]; simp
    have hcases : ∀ k, k + 1 < (cp ++ [cnt]).length →
        (k + 1 < cp.length ∧ (cp ++ [cnt]).getD k 0 = cp.getD k 0 ∧
          (cp ++ [cnt]).getD (k + 1) 0 = cp.getD (k + 1) 0) ∨
        ((cp ++ [cnt]).getD k 0 = cp.getD (cp.length - 1) 0 ∧ (cp ++ [cnt]).getD (k + 1) 0 = cnt) := by
      intro k hk
      rw [List.length_append, List.length_singleton] at hk
      rcases Nat.lt_or_ge (k + 1) cp.length with h | h
      · left
        rw [getD_append_left _ _ _ (by omega), getD_append_left _ _ _ h]
        exact ⟨h, rfl, rfl⟩
      · right
        have hk' : k = cp.length - 1 := by omega
        rw [getD_append_left _ _ _ (by omega), hk']
        refine ⟨rfl, ?_⟩
        rw [show cp.length - 1 + 1 = cp.length by omega, hlast]
    have hB : BlocksOk g (cp ++ [cnt]) g.n := by
      refine ⟨by simp; omega, ?_, ?_, ?_, ?_⟩
      · rw [getD_append_left _ _ _ h2]; exact h3
      · rw [show (cp ++ [cnt]).length - 1 = cp.length by simp, hlast]; omega
      · intro k hk
        rcases hcases k hk with ⟨h, e1, e2⟩ | ⟨e1, e2⟩
        · rw [e1, e2]; exact h6 k h
        · rw [e1, e2]; omega
      · intro k hk
        rcases hcases k hk with ⟨h, e1, e2⟩ | ⟨e1, e2⟩
        · rw [e1, e2]; exact h7 k h
        · rw [e1, e2]
          refine hrun _ _ (by omega) ?_
          intro k' h8 h9
          rw [h5b k' h8 (by omega), h5b _ (le_refl _) (by omega)]
    cases debug with
    | false => simpa using hB
    | true =>
      rw [if_pos rfl]
      have : back (cp ++ [cnt]) = ok cnt := by simp [back]
      rw [this, ok_bind, if_pos (by omega)]
      exact hB
  · refine ⟨rfl, by simp, by simp, by simp, by simp, ?_, ?_⟩
    all_goals intro k hk; simp at hk
  · rintro pre a post ⟨b, cnt, cp⟩ he ⟨h1, h2, h3, h4, h5, h6, h7⟩
    rw [List.nil_append] at he
    dsimp only at h1 h2 h3 h4 h5 h6 h7
    have hpl : pre.length < nc.length := by rw [he]; simp
    have hnca : nc.getD pre.length 0 = a := by
      rw [he, getD_append_right _ _ _ (le_refl _)]; simp
    rw [wp_ok]
    dsimp only
    rw [List.length_append, List.length_singleton]
    by_cases hab : a = b
    · rw [if_neg (by simpa using hab)]
      refine ⟨by omega, h2, h3, by simp, ?_, h6, h7⟩
      intro _
      by_cases hpre : pre = []
      · obtain ⟨h4a, h4b⟩ := h4 hpre
        rw [hpre]
        rw [h4a, Nat.sub_self, h3]
        refine ⟨by simp, ?_⟩
        intro k _ hk
        have hk0 : k = 0 := by simp at hk; omega
        rw [hk0, ← hnca, hpre]; rfl
      · obtain ⟨h5a, h5b⟩ := h5 hpre
        refine ⟨by omega, ?_⟩
        intro k hk1 hk2
        rcases Nat.lt_or_ge k pre.length with hk | hk
        · rw [h5b k hk1 hk, hab]
        · have : k = pre.length := by omega
          rw [this, hnca]
    · rw [if_pos hab]
      have hpre : pre ≠ [] := by
        intro hpre
        obtain ⟨h4a, h4b⟩ := h4 hpre
        apply hab
        rw [h4b]
        apply h.zero
        have := hm 0 (by omega)
        rw [← hnca, hpre]; exact this
      obtain ⟨h5a, h5b⟩ := h5 hpre
      have hlast : (cp ++ [cnt]).getD cp.length 0 = cnt := by
        rw [getD_append_right _ _ _ (le_refl _)]; simp
      have hcases : ∀ k, k + 1 < (cp ++ [cnt]).length →
          (k + 1 < cp.length ∧ (cp ++ [cnt]).getD k 0 = cp.getD k 0 ∧
            (cp ++ [cnt]).getD (k + 1) 0 = cp.getD (k + 1) 0) ∨
          ((cp ++ [cnt]).getD k 0 = cp.getD (cp.length - 1) 0 ∧
            (cp ++ [cnt]).getD (k + 1) 0 = cnt) := by
        intro k hk
        rw [List.length_append, List.length_singleton] at hk
        rcases Nat.lt_or_ge (k + 1) cp.length with h | h
        · left
          rw [getD_append_left _ _ _ (by omega), getD_append_left _ _ _ h]
          exact ⟨h, rfl, rfl⟩
        · right
          have hk' : k = cp.length - 1 := by omega
          rw [getD_append_left _ _ _ (by omega), hk']
          refine ⟨rfl, ?_⟩
          rw [show cp.length - 1 + 1 = cp.length by omega, hlast]
      refine ⟨by omega, by simp, ?_, by simp, ?_, ?_, ?_⟩
      · rw [getD_append_left _ _ _ h2]; exact h3
      · intro _
        rw [show (cp ++ [cnt]).length - 1 = cp.length by simp, hlast]
        refine ⟨by omega, ?_⟩
        intro k hk1 hk2
        have : k = pre.length := by omega
        rw [this, hnca]
      · intro k hk
        rcases hcases k hk with ⟨h, e1, e2⟩ | ⟨e1, e2⟩
        · rw [e1, e2]; exact h6 k h
        · rw [e1, e2]; omega
      · intro k hk
        rcases hcases k hk with ⟨h, e1, e2⟩ | ⟨e1, e2⟩
        · rw [e1, e2]; exact h7 k h
        · rw [e1, e2]
          refine hrun _ _ (by omega) ?_
          intro k' h8 h9
          rw [h5b k' h8 (by omega), h5b _ (le_refl _) (by omega)]

end Verif.Sparsify
