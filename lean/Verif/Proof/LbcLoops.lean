import Verif.Proof.Bfs
import Verif.Proof.SchedWin

/-! # Loops over levels in LBC -/

namespace Verif.Lbc
open Res Csc LevelSet Hdagg

variable {g : Csc} {L : Nat} {ptr set ntl : List Nat}

theorem forEach_wpm {α σ : Type} {t : Bool} (I : List α → σ → Prop) {f : α → σ → Res σ} :
    ∀ (l pre : List α) (s : σ), I pre s →
      (∀ p a q s, pre ++ l = p ++ a :: q → I p s → wpm t (f a s) (I (p ++ [a]))) →
      wpm t (forEach l f s) (I (pre ++ l)) := by
  intro l
  induction l with
  | nil => intro pre s h _; simpa [forEach] using h
  | cons a l ih =>
    intro pre s h hstep
    simp only [forEach, wpm_bind]
    refine wpm_mono (hstep pre a l s rfl h) ?_
    intro s' hs'
    have := ih (pre ++ [a]) s' hs' (by
      intro p b q s'' he
      exact hstep p b q s'' (by simpa using he))
    simpa using this

theorem forN_succ_last {σ : Type} (f : Nat → σ → Res σ) :
    ∀ (c a : Nat) (s : σ), forN (c + 1) a f s = forN c a f s >>= f (a + c) := by
  intro c
  induction c with
  | zero => intro a s; simp [forN]
            cases f a s <;> rfl
  | succ c ih =>
    intro a s
    rw [forN]
    conv_rhs => rw [forN]
    cases h : f a s with
    | ok b =>
      simp only [ok_bind]
      rw [ih, show a + 1 + c = a + (c + 1) by omega]
    | ub => rfl
    | exn => rfl
    | nofuel => rfl

theorem forRange_succ_last {σ : Type} {lo hi : Nat} (h : lo ≤ hi) (f : Nat → σ → Res σ) (s : σ) :
    forRange lo (hi + 1) f s = forRange lo hi f s >>= f hi := by
  unfold forRange
  rw [show hi + 1 - lo = hi - lo + 1 by omega, forN_succ_last, show lo + (hi - lo) = hi by omega]

/-- One level. -/
theorem level_loop {σ : Type} (h : LevelOk g L ptr set ntl) {a b : Nat} (hab : a ≤ b) (hb : b ≤ L)
    (f : Nat → σ → Res σ) (s : σ) :
    forRange (ptr.getD a 0) (ptr.getD b 0) (fun j s => do
      let x ← rd set j
      f x s) s = forEach (win ptr set a b) f s := by
  unfold forRange
  have h1 := h.ptr_mono hab hb
  have h2 := h.ptr_le hb
  have h3 := h.setLen
  rw [forRange_rd set f _ _ _ (by omega)]
  rfl

theorem overLevels_empty {σ : Type} {lo hi : Nat} (hle : hi ≤ lo) (f : Nat → σ → Res σ) (s : σ) :
    overLevels ptr set lo hi f s = ok s := forRange_empty _ _ hle

theorem overLevels_eq {σ : Type} (h : LevelOk g L ptr set ntl) {lo : Nat}
    (f : Nat → σ → Res σ) (s : σ) : ∀ hi, lo ≤ hi → hi ≤ L →
    overLevels ptr set lo hi f s = forEach (win ptr set lo hi) f s := by
  intro hi
  induction hi with
  | zero =>
    intro h1 _
    obtain rfl : lo = 0 := by omega
    rw [overLevels_empty (Nat.le_refl _)]
    simp [win, slice_self, forEach]
  | succ hi ih =>
    intro h1 h2
    rcases Nat.lt_or_ge lo (hi + 1) with hlt | hge
    · have h3 := ih (by omega) (by omega)
      have hn := h.lN
      have hpl := h.ptrLen
      unfold overLevels at h3 ⊢
      rw [forRange_succ_last (by omega), h3, win_append h (a := lo) (b := hi) (by omega) (by omega) h2,
        forEach_append]
      cases forEach (win ptr set lo hi) f s with
      | ok s' =>
        simp only [ok_bind]
        rw [rd_getD 0 (by omega), ok_bind, rd_getD 0 (by omega), ok_bind]
        exact level_loop h (by omega) h2 f s'
      | ub => rfl
      | exn => rfl
      | nofuel => rfl
    · obtain rfl : lo = hi + 1 := by omega
      rw [overLevels_empty (Nat.le_refl _)]
      simp [win, slice_self, forEach]

/-- The last window ends one level after the last one; that level is empty. -/
theorem overLevels_last {σ : Type} (h : LevelOk g L ptr set ntl) (hL : L + 1 < ptr.length) {lo : Nat}
    (hlo : lo ≤ L) (f : Nat → σ → Res σ) (s : σ) :
    overLevels ptr set lo (L + 1) f s = forEach (win ptr set lo L) f s := by
  have h1 := overLevels_eq h f s L hlo (Nat.le_refl _)
  have hpl := h.ptrLen
  unfold overLevels at h1 ⊢
  rw [forRange_succ_last hlo, h1]
  cases forEach (win ptr set lo L) f s with
  | ok s' =>
    simp only [ok_bind]
    rw [rd_getD 0 (by omega), ok_bind, rd_getD 0 (by omega), ok_bind, h.beyond (L + 1) (by omega)]
    exact forRange_empty _ _ (by omega)
  | ub => rfl
  | exn => rfl
  | nofuel => rfl

/-- Both cases. -/
theorem overLevels_min {σ : Type} (h : LevelOk g L ptr set ntl) (hL : L + 1 < ptr.length) {lo hi : Nat}
    (hlo : lo ≤ L) (hlh : lo ≤ hi) (hhi : hi ≤ L + 1) (f : Nat → σ → Res σ) (s : σ) :
    overLevels ptr set lo hi f s = forEach (win ptr set lo (min hi L)) f s := by
  rcases Nat.lt_or_ge L hi with h1 | h1
  · obtain rfl : hi = L + 1 := by omega
    rw [overLevels_last h hL hlo, show min (L + 1) L = L by omega]
  · rw [overLevels_eq h f s hi hlh h1, show min hi L = hi by omega]

/-- Setting marks. -/
theorem marks_wp {α : Type} (b d : α) (ws : List Nat) (v : List α) (hw : ∀ x ∈ ws, x < v.length) :
    wp (forEach ws (fun x v => wr v x b) v) (fun v' => v'.length = v.length ∧
      ∀ x, v'.getD x d = if x ∈ ws then b else v.getD x d) := by
  have key := forEach_wp (fun p (v' : List α) => v'.length = v.length ∧
      ∀ x, v'.getD x d = if x ∈ p then b else v.getD x d) (f := fun x v => wr v x b) ws [] v
      ⟨rfl, by simp⟩ ?_
  · simpa using key
  · rintro p a q v' he ⟨h1, h2⟩
    have ha := hw a (by rw [← List.nil_append ws, he]; simp)
    rw [wr_eq (by omega), wp_ok]
    refine ⟨by simpa using h1, ?_⟩
    intro x
    rw [getD_set]
    by_cases hx : x = a
    · subst hx
      rw [if_pos ⟨rfl, by omega⟩, if_pos (by simp)]
    · rw [if_neg (by omega), h2]
      simp [hx]

theorem win_lt (h : LevelOk g L ptr set ntl) {a b v : Nat} (hv : v ∈ win ptr set a b) : v < g.n := by
  unfold win at hv
  exact LevelOk.set_lt h (List.mem_of_mem_drop (List.mem_of_mem_take hv))

/-- Marking a range of levels, `hi` at most the number of levels. -/
theorem markLevels_wp {α : Type} (h : LevelOk g L ptr set ntl) (b d : α) {lo hi : Nat} (hhi : hi ≤ L)
    {v : List α} (hv : v.length = g.n) :
    wp (overLevels ptr set lo hi (fun x v => wr v x b) v) (fun v' => v'.length = g.n ∧
      ∀ x, x < g.n → v'.getD x d = if lo ≤ ntl.getD x 0 ∧ ntl.getD x 0 < hi then b else v.getD x d) := by
  rcases Nat.lt_or_ge hi lo with h1 | h1
  · rw [overLevels_empty (by omega), wp_ok]
    refine ⟨hv, fun x _ => ?_⟩
    rw [if_neg (by omega)]
  · rw [overLevels_eq h _ _ hi h1 hhi]
    refine wp_mono (marks_wp b d _ v (fun x hx => by rw [hv]; exact win_lt h hx)) ?_
    rintro v' ⟨h2, h3⟩
    refine ⟨by omega, fun x hx => ?_⟩
    rw [h3]
    simp only [LevelOk.mem_win h h1 hhi, hx, true_and]

/-- Marking the level before `dfs`. -/
theorem markLower_wp {α : Type} (h : LevelOk g L ptr set ntl) (b d : α) {dfs : Nat} (hd : dfs ≤ L)
    {v : List α} (hv : v.length = g.n) :
    wp (overLower ptr set dfs (fun x v => wr v x b) v) (fun v' => v'.length = g.n ∧
      ∀ x, x < g.n → v'.getD x d = if ntl.getD x 0 + 1 = dfs then b else v.getD x d) := by
  unfold overLower
  have hn := h.lN
  have hpl := h.ptrLen
  rw [rd_getD 0 (by omega), ok_bind, rd_getD 0 (by omega), ok_bind,
    level_loop h (a := dfs - 1) (b := dfs) (by omega) hd]
  refine wp_mono (marks_wp b d _ v (fun x hx => by rw [hv]; exact win_lt h hx)) ?_
  rintro v' ⟨h2, h3⟩
  refine ⟨by omega, fun x hx => ?_⟩
  rw [h3]
  simp only [LevelOk.mem_win h (by omega : dfs - 1 ≤ dfs) hd, hx, true_and]
  by_cases h4 : ntl.getD x 0 + 1 = dfs
  · rw [if_pos (by omega), if_pos h4]
  · rw [if_neg (by omega), if_neg h4]

theorem nodeLevels_eq (h : LevelOk g L ptr set ntl) : nodeLevels L ptr set g.n = ok ntl := by
  have hn := h.lN
  have hpl := h.ptrLen
  have key : wp (nodeLevels L ptr set g.n) (fun r => r = ntl) := by
    unfold nodeLevels
    refine forRange_wp' (fun i (r : List Nat) => r.length = g.n ∧
      ∀ x, x < g.n → ntl.getD x 0 < i → r.getD x 0 = ntl.getD x 0) (Nat.zero_le _) ?_ ?_ ?_
    · exact ⟨by simp, fun x _ hx => by omega⟩
    · rintro i r _ hi ⟨h1, h2⟩
      rw [rd_getD 0 (by omega), ok_bind, rd_getD 0 (by omega), ok_bind,
        level_loop h (a := i) (b := i + 1) (by omega) (by omega)]
      refine wp_mono (marks_wp i 0 _ r (fun x hx => by rw [h1]; exact win_lt h hx)) ?_
      rintro r' ⟨h3, h4⟩
      refine ⟨by omega, fun x hx hxl => ?_⟩
      rw [h4]
      simp only [LevelOk.mem_win h (by omega : i ≤ i + 1) (by omega : i + 1 ≤ L), hx, true_and]
      by_cases h5 : ntl.getD x 0 = i
      · rw [if_pos (by omega)]; exact h5.symm
      · rw [if_neg (by omega)]; exact h2 x hx (by omega)
    · rintro r ⟨h1, h2⟩
      apply List.ext_getElem?
      intro k
      rcases Nat.lt_or_ge k g.n with hk | hk
      · rw [Hdagg.getElem?_getD 0 (by omega), Hdagg.getElem?_getD 0 (by rw [h.ntlLen]; exact hk),
          h2 k hk (h.ntlLt k hk)]
      · rw [List.getElem?_eq_none (by omega), List.getElem?_eq_none (by rw [h.ntlLen]; exact hk)]
  obtain ⟨r, h1, rfl⟩ := wp_iff.1 key
  exact h1

/-- Counting one column. -/
theorem countCol_wp (hwf : g.WF) {x : Nat} (hx : x < g.n) {deg : List Int} (hl : deg.length = g.n) :
    wp (countCol g.p g.i x deg) (fun deg' => deg'.length = g.n ∧
      ∀ v, v < g.n → deg'.getD v 0 = deg.getD v 0 + ((g.col x).count v : Int)) := by
  have hm := hwf.mono x hx
  have hle := hwf.ptr_le (a := x + 1) (by omega)
  unfold countCol
  rw [hwf.rd_p (by omega), ok_bind, hwf.rd_p (by omega), ok_bind]
  unfold forRange
  rw [forRange_rd g.i (fun cn deg => do
    let d ← rd deg cn
    wr deg cn (d + 1)) _ _ _ (by omega)]
  change wp (forEach (g.col x) _ _) _
  have key := forEach_wp (fun p (t : List Int) => t.length = g.n ∧
    ∀ v, v < g.n → t.getD v 0 = deg.getD v 0 + (p.count v : Int)) (f := fun cn deg => do
    let d ← rd deg cn
    wr deg cn (d + 1)) (g.col x) [] deg ⟨hl, by simp⟩ ?_
  · simpa using key
  · rintro p a q t he ⟨h1, h2⟩
    have ha := hwf.range x hx a (by rw [← List.nil_append (g.col x), he]; simp)
    rw [rd_getD 0 (by omega), ok_bind, wr_eq (by omega), wp_ok]
    refine ⟨by simpa using h1, fun v hv => ?_⟩
    rw [getD_set, List.count_append, List.count_singleton]
    by_cases hav : a = v
    · subst hav
      rw [if_pos ⟨rfl, by omega⟩, h2 a hv]; simp; omega
    · rw [if_neg (by omega), h2 v hv]; simp [hav]

/-- Number of entries `v` in the columns of the nodes of a list. -/
def entries (g : Csc) (W : List Nat) (v : Nat) : Nat := (W.map fun u => (g.col u).count v).sum

theorem entries_rem (hd : g.OneDiag) {v : Nat} (hv : v < g.n) :
    ∀ (W S : List Nat), (∀ u ∈ W, u < g.n ∧ u ∉ S) → W.Nodup →
      entries g W v + g.remIn (S ++ W) v = g.remIn S v + if v ∈ W then 1 else 0 := by
  intro W
  induction W with
  | nil => intro S _ _; simp [entries]
  | cons u W ih =>
    intro S hS hn
    have hu := hS u (by simp)
    rw [List.nodup_cons] at hn
    have := ih (S ++ [u]) (by
      intro w hw
      refine ⟨(hS w (by simp [hw])).1, ?_⟩
      rw [List.mem_append, List.mem_singleton]
      rintro (h1 | h1)
      · exact (hS w (by simp [hw])).2 h1
      · exact hn.1 (h1 ▸ hw)) hn.2
    have h2 := remIn_append (v := v) hu.1 hu.2
    have h3 : S ++ [u] ++ W = S ++ u :: W := by simp
    rw [h3] at this
    have h4 : entries g (u :: W) v = (g.col u).count v + entries g W v := by simp [entries]
    rw [h4]
    by_cases huv : u = v
    · subst huv
      rw [if_pos rfl] at h2
      rw [if_neg hn.1] at this
      rw [if_pos (by simp), hd u hv]
      omega
    · rw [if_neg huv] at h2
      have h5 : (v ∈ u :: W) ↔ v ∈ W := by
        rw [List.mem_cons]
        exact ⟨fun h => h.resolve_left (fun h => huv h.symm), .inr⟩
      simp only [h5]
      omega

theorem windowInit_wp (hwf : g.WF) (h : LevelOk g L ptr set ntl) (hL : L + 1 < ptr.length) {lo hi : Nat}
    (hlo : lo ≤ L) (hlh : lo ≤ hi) (hhi : hi ≤ L + 1) :
    wp (windowInit g.n g.p g.i ptr set lo hi) (fun r => r.1 = win ptr set lo (min hi L) ∧
      r.2.length = g.n ∧
      ∀ v, v < g.n → r.2.getD v 0 = (entries g (win ptr set lo (min hi L)) v : Int)) := by
  unfold windowInit
  rw [overLevels_min h hL hlo hlh hhi]
  generalize hW : win ptr set lo (min hi L) = W
  have hlen : W.length ≤ g.n := by
    rw [← hW, win_length h (by omega)]
    have := h.ptr_le (a := min hi L) (by omega)
    omega
  have key := forEach_wp (fun p (r : List Nat × List Int) => r.1 = p ∧ r.2.length = g.n ∧
      ∀ v, v < g.n → r.2.getD v 0 = (entries g p v : Int)) (f := fun x s =>
    if g.n ≤ s.1.length then Res.ub else do
      let deg ← countCol g.p g.i x s.2
      ok (s.1 ++ [x], deg)) W [] ([], List.replicate g.n 0) ⟨rfl, by simp, ?_⟩ ?_
  · simpa using key
  · intro v hv
    rw [getD_replicate _ _ _ _ hv]; simp [entries]
  · rintro p a q ⟨r1, r2⟩ he ⟨h1, h2, h3⟩
    dsimp only at h1 h2 h3 ⊢
    subst h1
    rw [List.nil_append] at he
    have hpl : r1.length < g.n := by
      have : W.length = r1.length + (q.length + 1) := by rw [he]; simp
      omega
    have ha : a < g.n := win_lt h (a := lo) (b := min hi L) (by rw [hW, he]; simp)
    rw [if_neg (by omega), wp_bind]
    refine wp_mono (countCol_wp hwf ha h2) ?_
    rintro deg ⟨h4, h5⟩
    rw [wp_ok]
    refine ⟨rfl, h4, fun v hv => ?_⟩
    rw [h5 v hv, h3 v hv]
    simp [entries]

theorem windowCount_wp (h : LevelOk g L ptr set ntl) (hL : L + 1 < ptr.length) {lo hi : Nat}
    (hlo : lo ≤ L) (hlh : lo ≤ hi) (hhi : hi ≤ L + 1) :
    wp (overLevels ptr set lo hi (fun _ (c : Nat) => ok (c + 1)) 0) (fun _ => True) := by
  rw [overLevels_min h hL hlo hlh hhi]
  exact forEach_wp (fun _ (_ : Nat) => True) (f := fun _ (c : Nat) => ok (c + 1)) _ [] 0 trivial
    (fun _ _ _ _ _ _ => trivial)

end Verif.Lbc
