import Verif.Model.RunGroup
import Verif.Proof.GroupDag
import Verif.Proof.LevelSet

/-! # Grouping runs of rows -/

namespace Verif.RunGroup
open Res Csc

/-- The number of the run that contains `i`, if `link i` says that `i` and `i + 1` are in one run. -/
def grp (link : Nat → Bool) : Nat → Nat
  | 0 => 0
  | i + 1 => if link i then grp link i else grp link i + 1

/-- A run begins at `v`. -/
def Start (link : Nat → Bool) (v : Nat) : Prop := v = 0 ∨ link (v - 1) = false

/-- The number of runs among the first `k` rows. -/
def runs (link : Nat → Bool) : Nat → Nat
  | 0 => 0
  | k + 1 => grp link k + 1

variable {link : Nat → Bool}

theorem grp_mono {a b : Nat} (h : a ≤ b) : grp link a ≤ grp link b := by
  induction h with
  | refl => exact Nat.le_refl _
  | step _ ih => refine Nat.le_trans ih ?_; rw [grp]; split <;> omega

theorem grp_le (i : Nat) : grp link i ≤ i := by
  induction i with
  | zero => exact Nat.le_refl _
  | succ i ih => rw [grp]; split <;> omega

theorem runs_le (k : Nat) : runs link k ≤ k := by
  cases k with
  | zero => exact Nat.le_refl _
  | succ k => have := grp_le (link := link) k; rw [runs]; omega

theorem grp_start {v : Nat} (h : Start link (v + 1)) : grp link (v + 1) = grp link v + 1 := by
  rcases h with h | h
  · omega
  · rw [grp, if_neg (by simpa using h)]

theorem exists_start (v b : Nat) (h : b ≤ grp link v) :
    ∃ u, u ≤ v ∧ Start link u ∧ grp link u = b := by
  induction v with
  | zero => exact ⟨0, Nat.le_refl _, .inl rfl, by rw [grp] at *; omega⟩
  | succ v ih =>
    by_cases hb : b ≤ grp link v
    · obtain ⟨u, h1, h2, h3⟩ := ih hb
      exact ⟨u, by omega, h2, h3⟩
    · rw [grp] at h
      split at h
      · omega
      · rename_i hl
        have hs : Start link (v + 1) := .inr (by simpa using hl)
        exact ⟨v + 1, Nat.le_refl _, hs, by rw [grp_start hs]; omega⟩

theorem start_lt {u w : Nat} (hw : Start link w) (h : u < w) : grp link u < grp link w := by
  cases w with
  | zero => omega
  | succ w =>
    rw [grp_start hw]
    have := grp_mono (link := link) (a := u) (b := w) (by omega)
    omega

theorem grp_lt_runs {v n : Nat} (h : v < n) : grp link v < runs link n := by
  cases n with
  | zero => omega
  | succ n =>
    have := grp_mono (link := link) (a := v) (b := n) (by omega)
    rw [runs]; omega

/-- What the grouping functions return: the runs of `link` in the first `n` rows. -/
structure Done (n N : Nat) (link : Nat → Bool) (o : Out) : Prop where
  lenSet : o.set.length = N ∧ n ≤ N
  lenInv : n ≤ o.inv.length
  lenPtr : o.num < o.ptr.length
  set : o.set.take n = List.range n
  inv : ∀ v, v < n → o.inv.getD v 0 = grp link v
  num : o.num = runs link n
  start : ∀ v, v < n → Start link v → o.ptr.getD (grp link v) 0 = v
  last : o.ptr.getD o.num 0 = n

namespace Done
variable {n N : Nat} {o : Out} (h : Done n N link o)
include h

theorem block {b : Nat} (hb : b < o.num) : ∃ u e, u < e ∧ e ≤ n ∧ o.ptr.getD b 0 = u ∧
    o.ptr.getD (b + 1) 0 = e ∧ ∀ v, v < n → (grp link v = b ↔ u ≤ v ∧ v < e) := by
  have hnum := h.num
  obtain ⟨m, rfl⟩ : ∃ m, n = m + 1 := by
    cases n with
    | zero => rw [hnum, runs] at hb; omega
    | succ m => exact ⟨m, rfl⟩
  rw [runs] at hnum
  obtain ⟨u, h1, h2, h3⟩ := exists_start (link := link) m b (by omega)
  have hu := h.start u (by omega) h2
  rw [h3] at hu
  by_cases hlast : b + 1 = o.num
  · refine ⟨u, m + 1, by omega, Nat.le_refl _, hu, by rw [hlast]; exact h.last, fun v hv => ?_⟩
    constructor
    · intro hg
      refine ⟨?_, hv⟩
      by_contra hc
      have := start_lt h2 (u := v) (by omega)
      omega
    · rintro ⟨h4, _⟩
      have := grp_mono (link := link) h4
      have := grp_mono (link := link) (a := v) (b := m) (by omega)
      omega
  · obtain ⟨e, h4, h5, h6⟩ := exists_start (link := link) m (b + 1) (by omega)
    have he := h.start e (by omega) h5
    rw [h6] at he
    have hue : u < e := by
      by_contra hc
      have := grp_mono (link := link) (a := e) (b := u) (by omega)
      omega
    refine ⟨u, e, hue, by omega, hu, he, fun v hv => ?_⟩
    constructor
    · intro hg
      constructor
      · by_contra hc
        have := start_lt h2 (u := v) (by omega)
        omega
      · by_contra hc
        have := grp_mono (link := link) (a := e) (b := v) (by omega)
        omega
    · rintro ⟨h7, h8⟩
      have := grp_mono (link := link) h7
      have := start_lt h5 h8
      omega

theorem ptrOk : PtrOk o.ptr o.num n := by
  refine PtrOk.mk' h.lenPtr ?_ h.last ?_
  · by_cases hn : n = 0
    · have h1 := h.last
      have h2 := h.num
      subst hn
      rw [runs] at h2
      rw [h2] at h1
      exact h1
    · exact h.start 0 (by omega) (.inl rfl)
  · intro b hb
    obtain ⟨u, e, h1, _, h2, h3, _⟩ := h.block hb
    omega

theorem partition : o.grouping.Partition n :=
  ⟨h.ptrOk, by show (o.set.take n).Perm _; rw [h.set]⟩

theorem rows {b : Nat} (hb : b < o.num) :
    groupRows o.ptr o.set b = List.range' (o.ptr.getD b 0) (o.ptr.getD (b + 1) 0 - o.ptr.getD b 0) := by
  have h1 := h.ptrOk.dle (b := b + 1) hb
  have e : groupRows o.ptr o.set b
      = ((o.set.take n).drop (o.ptr.getD b 0)).take (o.ptr.getD (b + 1) 0 - o.ptr.getD b 0) := by
    unfold groupRows
    rw [List.drop_take, List.take_take, Nat.min_eq_left (by omega)]
  rw [e, h.set]
  apply List.ext_getElem?
  intro k
  rw [List.getElem?_take]
  split
  · rename_i hk
    rw [List.getElem?_drop, List.getElem?_range (by omega), List.getElem?_range' (by omega)]
    simp
  · rename_i hk
    rw [List.getElem?_eq_none (by rw [List.length_range']; omega)]

theorem mem_iff {v b : Nat} : o.grouping.Mem v b ↔ v < n ∧ grp link v = b := by
  constructor
  · rintro ⟨h1, h2⟩
    have h1 : b < o.num := h1
    have h2 : v ∈ groupRows o.ptr o.set b := h2
    obtain ⟨u, e, g1, g2, g3, g4, g5⟩ := h.block h1
    rw [h.rows h1, List.mem_range'_1, g3, g4] at h2
    exact ⟨by omega, (g5 v (by omega)).2 ⟨by omega, by omega⟩⟩
  · rintro ⟨h1, h2⟩
    have hb : b < o.num := by
      have := grp_lt_runs (link := link) h1
      rw [← h.num] at this
      omega
    refine ⟨hb, ?_⟩
    show v ∈ groupRows o.ptr o.set b
    obtain ⟨u, e, g1, g2, g3, g4, g5⟩ := h.block hb
    rw [h.rows hb, List.mem_range'_1, g3, g4]
    have := (g5 v h1).1 h2
    omega

theorem nonEmpty : o.grouping.NonEmpty := by
  intro b hb
  have hb : b < o.num := hb
  obtain ⟨u, e, g1, _, g3, g4, _⟩ := h.block hb
  show groupRows o.ptr o.set b ≠ []
  rw [h.rows hb, g3, g4]
  intro hc
  have := congrArg List.length hc
  simp at this
  omega

end Done

/-! ### Collecting -/

/-- State of the collecting loop: the first `pos` rows are done. -/
structure Core (n N : Nat) (link : Nat → Bool) (s : St) : Prop where
  lenVis : s.visited.length = n
  lenPtr : n < s.ptr.length
  lenSet : s.set.length = N ∧ n ≤ N
  lenInv : n ≤ s.inv.length
  pos : s.pos ≤ n
  vis : ∀ v, v < n → (s.visited.getD v false = true ↔ v < s.pos)
  set : s.set.take s.pos = List.range s.pos
  inv : ∀ v, v < s.pos → s.inv.getD v 0 = grp link v
  start : ∀ v, v < s.pos → Start link v → s.ptr.getD (grp link v) 0 = v

theorem put_wp {n N : Nat} {s : St} (h : Core n N link s) (hp : s.pos < n)
    (hi : s.idx = grp link s.pos)
    (hst : Start link s.pos → s.ptr.getD (grp link s.pos) 0 = s.pos) :
    wp (put s.pos s) (fun t => Core n N link t ∧ t.pos = s.pos + 1 ∧ t.idx = s.idx) := by
  have h1 := h.lenVis
  have h2 := h.lenSet
  have h3 := h.lenInv
  unfold put
  rw [wr_eq (by omega), ok_bind, wr_eq (by omega), ok_bind, wr_eq (by omega), ok_bind, wp_ok]
  refine ⟨⟨by simpa using h1, h.lenPtr, by simpa using h2, by simpa using h3, hp, ?_, ?_, ?_, ?_⟩,
    rfl, rfl⟩
  · intro v hv
    dsimp only
    rw [getD_set]
    by_cases hvp : s.pos = v
    · rw [if_pos ⟨hvp, by omega⟩]
      simp; omega
    · rw [if_neg (fun hc => hvp hc.1), h.vis v hv]
      omega
  · dsimp only
    rw [LevelSet.take_set_succ _ _ _ (by omega), h.set, List.range_succ]
  · intro v hv
    dsimp only at hv ⊢
    rw [getD_set]
    by_cases hvp : s.pos = v
    · rw [if_pos ⟨hvp, by omega⟩, hi, hvp]
    · rw [if_neg (fun hc => hvp hc.1)]
      exact h.inv v (by omega)
  · intro v hv hs
    dsimp only at hv ⊢
    by_cases hvp : v = s.pos
    · subst hvp; exact hst hs
    · exact h.start v (by omega) hs

/-- What `next` must contain. -/
structure NextOk (n : Nat) (link : Nat → Bool) (next : List Nat) : Prop where
  len : next.length = n
  val : ∀ i, i < n → next.getD i 0 = if link i then i + 1 else 0
  bound : ∀ i, link i = true → i + 1 < n

theorem chase_wp {n N : Nat} {next : List Nat} (hn : NextOk n link next) {s : St}
    (h : Core n N link s) (hpos : 0 < s.pos) (hidx : s.idx = grp link (s.pos - 1)) :
    wp (chase n next (s, next.getD (s.pos - 1) 0)) (fun t => Core n N link t.1 ∧ s.pos ≤ t.1.pos ∧
      t.1.idx = grp link (t.1.pos - 1) ∧ link (t.1.pos - 1) = false) := by
  have hlen := hn.len
  unfold chase
  refine whileF_wp (fun t : St × Nat => Core n N link t.1 ∧ s.pos ≤ t.1.pos ∧
      t.1.idx = grp link (t.1.pos - 1) ∧ t.2 = next.getD (t.1.pos - 1) 0)
    (fun t => n - t.1.pos) ?_ _ _ (by have := h.pos; dsimp only; omega)
    ⟨h, Nat.le_refl _, hidx, rfl⟩
  rintro ⟨t, ch⟩ ⟨h1, h2, h3, h4⟩
  dsimp only at h1 h2 h3 h4 ⊢
  have hp := h1.pos
  have hv := hn.val (t.pos - 1) (by omega)
  rw [hv] at h4
  by_cases hl : link (t.pos - 1) = true
  · rw [if_pos hl, show t.pos - 1 + 1 = t.pos by omega] at h4
    have hb := hn.bound _ hl
    subst h4
    rw [if_neg (by omega), rd_getD false (by rw [h1.lenVis]; omega), ok_bind, wp_ok]
    have hvis : t.visited.getD t.pos false = false := by
      have := (h1.vis t.pos (by omega)).not
      simpa using this
    rw [hvis]
    simp only [Bool.not_false, if_true]
    refine ⟨by omega, ?_⟩
    have hg : grp link t.pos = grp link (t.pos - 1) := by
      conv_lhs => rw [show t.pos = t.pos - 1 + 1 by omega]
      rw [grp, if_pos hl]
    rw [wp_bind]
    refine wp_mono (put_wp h1 (by omega) (by rw [h3, hg]) ?_) ?_
    · rintro (h0 | h0)
      · omega
      · rw [hl] at h0; cases h0
    · rintro u ⟨g1, g2, g3⟩
      rw [rd_getD 0 (by omega), ok_bind, wp_ok]
      have e : u.pos - 1 = t.pos := by omega
      refine ⟨⟨g1, by dsimp only; omega, ?_, ?_⟩, by dsimp only; omega⟩
      · dsimp only; rw [g3, h3, e, hg]
      · dsimp only; rw [e]
  · rw [if_neg hl] at h4
    rw [if_pos h4, wp_ok]
    simp only [Bool.false_eq_true, if_false]
    exact ⟨h1, h2, h3, by simpa using hl⟩

theorem collect_wp {n : Nat} {next ptr set inv : List Nat} (hn : NextOk n link next)
    (hp : n < ptr.length) (hs : n ≤ set.length) (hi : n ≤ inv.length) :
    wp (collect n next ptr set inv) (Done n set.length link) := by
  unfold collect
  rw [wp_bind]
  refine forRange_wp' (fun i s => Core n set.length link s ∧ i ≤ s.pos ∧ s.idx = runs link s.pos ∧
      Start link s.pos) (Nat.zero_le _) ?_ ?_ ?_
  · refine ⟨⟨by simp, hp, ⟨rfl, hs⟩, hi, Nat.zero_le _, ?_, by simp, by intro v hv; simp at hv,
      by intro v hv; simp at hv⟩, Nat.zero_le _, rfl, .inl rfl⟩
    intro v hv
    dsimp only
    rw [getD_replicate _ _ _ _ hv]
    simp
  · rintro i s _ hin ⟨h1, h2, h3, h4⟩
    have hlv := h1.lenVis
    have hlp := h1.lenPtr
    have hln := hn.len
    unfold collectStep
    rw [rd_getD false (by omega), ok_bind]
    by_cases hv : s.visited.getD i false = true
    · rw [hv, if_pos rfl, wp_ok]
      have := (h1.vis i hin).1 hv
      exact ⟨h1, by omega, h3, h4⟩
    · rw [if_neg hv]
      have hip : i = s.pos := by
        have := (h1.vis i hin).not.1 hv
        omega
      subst hip
      have hidx : s.idx = grp link s.pos := by
        rw [h3]
        cases hk : s.pos with
        | zero => rfl
        | succ k => rw [hk] at h4; rw [runs, grp_start h4]
      have hle := grp_le (link := link) s.pos
      rw [wr_eq (by omega), ok_bind, wp_bind]
      have hc : Core n set.length link { s with ptr := s.ptr.set s.idx s.pos } := by
        refine ⟨hlv, by simpa using hlp, h1.lenSet, h1.lenInv, h1.pos, h1.vis, h1.set, h1.inv, ?_⟩
        intro v hv hst
        dsimp only at hv ⊢
        rw [getD_set, if_neg, h1.start v hv hst]
        rintro ⟨hc, _⟩
        have := start_lt h4 (u := v) hv
        omega
      refine wp_mono (put_wp hc hin hidx ?_) ?_
      · intro _
        dsimp only
        rw [getD_set, if_pos ⟨hidx, by omega⟩]
      · rintro t ⟨g1, g2, g3⟩
        dsimp only at g2 g3
        rw [rd_getD 0 (by omega), ok_bind, wp_bind]
        have hch := chase_wp hn g1 (by omega) (by rw [g3, hidx, g2, Nat.add_sub_cancel])
        rw [g2, Nat.add_sub_cancel] at hch
        refine wp_mono hch ?_
        rintro u ⟨u1, u2, u3, u4⟩
        rw [wp_ok]
        refine ⟨⟨u1.lenVis, u1.lenPtr, u1.lenSet, u1.lenInv, u1.pos, u1.vis, u1.set, u1.inv, u1.start⟩,
          by dsimp only; omega, ?_, .inr u4⟩
        dsimp only
        rw [u3]
        conv_rhs => rw [show u.1.pos = u.1.pos - 1 + 1 by omega]
        rw [runs]
  · rintro s ⟨h1, h2, h3, h4⟩
    have hpos : s.pos = n := by have := h1.pos; omega
    have hle := runs_le (link := link) n
    have hlp := h1.lenPtr
    rw [hpos] at h3
    rw [wr_eq (by omega), ok_bind, wp_ok]
    refine ⟨h1.lenSet, h1.lenInv, by dsimp only; rw [List.length_set]; omega, ?_, ?_, h3, ?_, ?_⟩
    · rw [← hpos]; exact h1.set
    · intro v hv; exact h1.inv v (by omega)
    · intro v hv hst
      dsimp only
      rw [getD_set, if_neg, h1.start v (by omega) hst]
      rintro ⟨hc, _⟩
      have := grp_lt_runs (link := link) hv
      omega
    · dsimp only
      rw [getD_set, if_pos ⟨rfl, by omega⟩, hpos]

/-! ### The links -/

/-- Rows `i` and `i + 1` are linked: the last but one entry of row `i + 1` is in column `i`. -/
def linkCsr (g : Csc) (i : Nat) : Bool :=
  decide (i + 1 < g.n ∧ g.ptr (i + 1) + 1 < g.ptr (i + 1 + 1) ∧
    g.idx (g.ptr (i + 1 + 1) - 2) = i)

/-- Columns `i` and `i + 1` are linked: the second entry of column `i` is in row `i + 1`. -/
def linkCsc (g : Csc) (i : Nat) : Bool :=
  decide (i < g.n ∧ g.ptr i + 1 < g.ptr (i + 1) ∧ g.idx (g.ptr i + 1) = i + 1)

variable {g : Csc}

theorem rdZ_sub2 {l : List Nat} {k : Nat} (h2 : 2 ≤ k) (hk : k - 2 < l.length) :
    rdZ l ((k : Int) - 2) = ok (l.getD (k - 2) 0) := by
  unfold rdZ
  rw [if_neg (by omega), show ((k : Int) - 2).toNat = k - 2 by omega, rd_getD 0 hk]

theorem childCsr_wp (h : g.WF) : wp (childCsr g.n g.p g.i) (fun c => c.length = g.n ∧
    ∀ i, i < g.n → c.getD i 0 = if g.ptr i + 1 < g.ptr (i + 1)
      then (g.idx (g.ptr (i + 1) - 2) : Int) else -1) := by
  unfold childCsr
  refine forRange_wp' (fun k (c : List Int) => c.length = g.n ∧ ∀ i, i < k →
    c.getD i 0 = if g.ptr i + 1 < g.ptr (i + 1)
      then (g.idx (g.ptr (i + 1) - 2) : Int) else -1) (Nat.zero_le _) ⟨by simp, by intro i hi; omega⟩
    ?_ (fun c hc => hc)
  rintro k c _ hk ⟨h1, h2⟩
  have hm := h.mono k hk
  have hle := h.ptr_le (a := k + 1) (by omega)
  have key : ∀ x : Int, x = (if g.ptr k + 1 < g.ptr (k + 1)
      then (g.idx (g.ptr (k + 1) - 2) : Int) else -1) →
      wp (wr c k x) (fun c => c.length = g.n ∧ ∀ i, i < k + 1 →
        c.getD i 0 = if g.ptr i + 1 < g.ptr (i + 1)
          then (g.idx (g.ptr (i + 1) - 2) : Int) else -1) := by
    intro x hx
    rw [wr_eq (by omega), wp_ok]
    refine ⟨by simpa using h1, fun i hi => ?_⟩
    rw [getD_set]
    by_cases hik : k = i
    · subst hik; rw [if_pos ⟨rfl, by omega⟩, hx]
    · rw [if_neg (fun hc => hik hc.1), h2 i (by omega)]
  rw [h.rd_p (by omega), h.rd_p (by omega), ok_bind, ok_bind]
  by_cases hc : g.ptr k + 1 < g.ptr (k + 1)
  · rw [if_pos (by omega), rdZ_sub2 (by omega) (by omega), ok_bind]
    exact key _ (by rw [if_pos hc]; rfl)
  · rw [if_neg (by omega)]
    exact key _ (by rw [if_neg hc])

theorem nextCsr_wp {child : List Int} (hl : child.length = g.n)
    (hc : ∀ i, i < g.n → child.getD i 0 = if g.ptr i + 1 < g.ptr (i + 1)
      then (g.idx (g.ptr (i + 1) - 2) : Int) else -1) :
    wp (nextCsr g.n child) (fun s => NextOk g.n (linkCsr g) s.1) := by
  have hb : ∀ i, linkCsr g i = true → i + 1 < g.n := by
    intro i hi; unfold linkCsr at hi; simp only [decide_eq_true_eq] at hi; exact hi.1
  by_cases hn : g.n ≤ 1
  · unfold nextCsr
    rw [forRange_empty _ _ (by omega), wp_ok]
    refine ⟨by simp, fun i hi => ?_, hb⟩
    dsimp only
    rw [getD_replicate _ _ _ _ hi, if_neg]
    intro hc
    have := hb i hc
    omega
  unfold nextCsr
  refine forRange_wp' (fun k (s : List Nat × List Int) => s.1.length = g.n ∧ s.2.length = g.n ∧
    ∀ i, i < g.n → s.1.getD i 0 = if linkCsr g i ∧ i + 1 < k then i + 1 else 0)
    (by omega) ⟨by simp, by simp, ?_⟩ ?_ ?_
  · intro i hi
    dsimp only
    rw [getD_replicate _ _ _ _ hi, if_neg (by omega)]
  · rintro k ⟨next, pre⟩ h1 hk ⟨h2, h3, h4⟩
    dsimp only at h2 h3 h4 ⊢
    rw [rd_getD 0 (by omega), ok_bind, hc k hk]
    obtain ⟨j, rfl⟩ : ∃ j, k = j + 1 := ⟨k - 1, by omega⟩
    by_cases hlk : linkCsr g j = true
    · have hlk' := hlk
      unfold linkCsr at hlk'
      simp only [decide_eq_true_eq] at hlk'
      rw [if_pos hlk'.2.1, hlk'.2.2, if_pos (by constructor <;> omega)]
      unfold wrZ
      rw [if_neg (by omega), Int.toNat_natCast, wr_eq (by omega), ok_bind, wr_eq (by omega), ok_bind,
        wp_ok]
      refine ⟨by simpa using h2, by simpa using h3, fun i hi => ?_⟩
      dsimp only
      rw [getD_set]
      by_cases hij : j = i
      · subst hij
        rw [if_pos ⟨rfl, by omega⟩, if_pos ⟨hlk, by omega⟩]
      · rw [if_neg (fun hc => hij hc.1), h4 i hi]
        congr 1
        simp only [eq_iff_iff, and_congr_right_iff]
        omega
    · have hlk' := hlk
      unfold linkCsr at hlk'
      simp only [decide_eq_true_eq] at hlk'
      rw [if_neg, wp_ok]
      · refine ⟨h2, h3, fun i hi => ?_⟩
        dsimp only
        rw [h4 i hi]
        congr 1
        simp only [eq_iff_iff, and_congr_right_iff]
        intro hli
        have : i ≠ j := by rintro rfl; exact hlk hli
        omega
      · split
        · rintro ⟨_, h5⟩
          exact hlk' ⟨hk, by assumption, by omega⟩
        · intro h5; exact h5.1 rfl
  · rintro ⟨next, pre⟩ ⟨h2, h3, h4⟩
    dsimp only at h2 h3 h4 ⊢
    refine ⟨h2, fun i hi => ?_, hb⟩
    rw [h4 i hi]
    congr 1
    simp only [eq_iff_iff, and_iff_left_iff_imp]
    exact hb i

theorem childCsc_wp (h : g.WF) : wp (childCsc g.n g.p g.i) (fun c => c.length = g.n ∧
    ∀ i, i < g.n → c.getD i 0 = if g.ptr i + 1 < g.ptr (i + 1)
      then (g.idx (g.ptr i + 1) : Int) else -1) := by
  unfold childCsc
  refine forRange_wp' (fun k (c : List Int) => c.length = g.n ∧ ∀ i, i < k →
    c.getD i 0 = if g.ptr i + 1 < g.ptr (i + 1)
      then (g.idx (g.ptr i + 1) : Int) else -1) (Nat.zero_le _) ⟨by simp, by intro i hi; omega⟩
    ?_ (fun c hc => hc)
  rintro k c _ hk ⟨h1, h2⟩
  have hm := h.mono k hk
  have hle := h.ptr_le (a := k + 1) (by omega)
  have key : ∀ x : Int, x = (if g.ptr k + 1 < g.ptr (k + 1)
      then (g.idx (g.ptr k + 1) : Int) else -1) →
      wp (wr c k x) (fun c => c.length = g.n ∧ ∀ i, i < k + 1 →
        c.getD i 0 = if g.ptr i + 1 < g.ptr (i + 1)
          then (g.idx (g.ptr i + 1) : Int) else -1) := by
    intro x hx
    rw [wr_eq (by omega), wp_ok]
    refine ⟨by simpa using h1, fun i hi => ?_⟩
    rw [getD_set]
    by_cases hik : k = i
    · subst hik; rw [if_pos ⟨rfl, by omega⟩, hx]
    · rw [if_neg (fun hc => hik hc.1), h2 i (by omega)]
  rw [h.rd_p (by omega), h.rd_p (by omega), ok_bind, ok_bind]
  by_cases hc : g.ptr k + 1 < g.ptr (k + 1)
  · rw [if_pos (by omega), rd_getD 0 (by omega), ok_bind]
    exact key _ (by rw [if_pos hc]; rfl)
  · rw [if_neg (by omega)]
    exact key _ (by rw [if_neg hc])

theorem linkCsc_lt (h : g.WF) {i : Nat} (hi : linkCsc g i = true) : i + 1 < g.n := by
  unfold linkCsc at hi
  simp only [decide_eq_true_eq] at hi
  refine h.range i hi.1 _ ?_
  have hle := h.ptr_le (a := i + 1) (by omega)
  rw [List.mem_iff_getElem?]
  refine ⟨1, ?_⟩
  unfold col
  rw [List.getElem?_take, if_pos (by omega), List.getElem?_drop, getElem?_getD 0 (by omega)]
  exact congrArg some hi.2.2

theorem nextCsc_wp (h : g.WF) {child : List Int} (hl : child.length = g.n)
    (hc : ∀ i, i < g.n → child.getD i 0 = if g.ptr i + 1 < g.ptr (i + 1)
      then (g.idx (g.ptr i + 1) : Int) else -1) :
    wp (nextCsc g.n child) (fun s => NextOk g.n (linkCsc g) s.1) := by
  have hb : ∀ i, linkCsc g i = true → i + 1 < g.n := fun i hi => linkCsc_lt h hi
  unfold nextCsc
  refine forRange_wp' (fun k (s : List Nat × List Int) => s.1.length = g.n ∧ s.2.length = g.n ∧
    ∀ i, i < g.n → s.1.getD i 0 = if linkCsc g i ∧ i < k then i + 1 else 0)
    (by omega) ⟨by simp, by simp, ?_⟩ ?_ ?_
  · intro i hi
    dsimp only
    rw [getD_replicate _ _ _ _ hi, if_neg (by omega)]
  · rintro k ⟨next, pre⟩ h1 hk ⟨h2, h3, h4⟩
    dsimp only at h2 h3 h4 ⊢
    rw [rd_getD 0 (by omega), ok_bind, hc k hk]
    by_cases hlk : linkCsc g k = true
    · have hlk' := hlk
      unfold linkCsc at hlk'
      simp only [decide_eq_true_eq] at hlk'
      have hkn := hb k hlk
      rw [if_pos hlk'.2.1, hlk'.2.2, if_pos (by constructor <;> omega)]
      unfold wrZ
      rw [Int.toNat_natCast, wr_eq (by omega), ok_bind, if_neg (by omega), wr_eq (by omega), ok_bind,
        wp_ok]
      refine ⟨by simpa using h2, by simpa using h3, fun i hi => ?_⟩
      dsimp only
      rw [getD_set]
      by_cases hij : k = i
      · subst hij
        rw [if_pos ⟨rfl, by omega⟩, if_pos ⟨hlk, by omega⟩]
      · rw [if_neg (fun hc => hij hc.1), h4 i hi]
        congr 1
        simp only [eq_iff_iff, and_congr_right_iff]
        omega
    · have hlk' := hlk
      unfold linkCsc at hlk'
      simp only [decide_eq_true_eq] at hlk'
      rw [if_neg, wp_ok]
      · refine ⟨h2, h3, fun i hi => ?_⟩
        dsimp only
        rw [h4 i hi]
        congr 1
        simp only [eq_iff_iff, and_congr_right_iff]
        intro hli
        have : i ≠ k := by rintro rfl; exact hlk hli
        omega
      · split
        · rintro ⟨_, h5⟩
          exact hlk' ⟨hk, by assumption, by omega⟩
        · intro h5; exact h5.1 rfl
  · rintro ⟨next, pre⟩ ⟨h2, h3, h4⟩
    dsimp only at h2 h3 h4 ⊢
    refine ⟨h2, fun i hi => ?_, hb⟩
    rw [h4 i hi]
    congr 1
    simp only [eq_iff_iff, and_iff_left_iff_imp]
    exact fun _ => hi

theorem sptrsvCsrV1_wp (h : g.WF) {ptr set inv : List Nat} (hp : g.n < ptr.length)
    (hs : g.n ≤ set.length) (hi : g.n ≤ inv.length) :
    wp (sptrsvCsrV1 g.n g.p g.i ptr set inv) (Done g.n set.length (linkCsr g)) := by
  unfold sptrsvCsrV1
  rw [wp_bind]
  refine wp_mono (childCsr_wp h) ?_
  rintro c ⟨h1, h2⟩
  rw [wp_bind]
  refine wp_mono (nextCsr_wp h1 h2) ?_
  intro s hn
  exact collect_wp hn hp hs hi

theorem spicoCscV1_wp (h : g.WF) {ptr set inv : List Nat} (hp : g.n < ptr.length)
    (hs : g.n ≤ set.length) (hi : g.n ≤ inv.length) :
    wp (spicoCscV1 g.n g.p g.i ptr set inv) (Done g.n set.length (linkCsc g)) := by
  unfold spicoCscV1
  rw [wp_bind]
  refine wp_mono (childCsc_wp h) ?_
  rintro c ⟨h1, h2⟩
  rw [wp_bind]
  refine wp_mono (nextCsc_wp h h1 h2) ?_
  intro s hn
  exact collect_wp hn hp hs hi

/-- Rows `i` and `i + 1` are in one block of size `b`. -/
def linkBlock (b i : Nat) : Bool := decide ((i + 1) % b ≠ 0)

theorem grp_block {b : Nat} (i : Nat) : grp (linkBlock b) i = i / b := by
  induction i with
  | zero => simp [grp]
  | succ i ih =>
    rw [grp, ih]
    by_cases h : (i + 1) % b = 0
    · rw [if_neg (by simp [linkBlock, h])]
      rw [Nat.succ_div, if_pos (Nat.dvd_of_mod_eq_zero h)]
    · rw [if_pos (by simp [linkBlock, h])]
      rw [Nat.succ_div, if_neg (fun hd => h (Nat.mod_eq_zero_of_dvd hd)), Nat.add_zero]

theorem start_block {b v : Nat} : Start (linkBlock b) v ↔ v % b = 0 := by
  unfold Start linkBlock
  cases v with
  | zero => simp
  | succ v => simp

theorem naive_wp {n b : Nat} (hb : 0 < b) {ptr set inv : List Nat} (hp : n < ptr.length)
    (hs : n ≤ set.length) (hi : n ≤ inv.length) :
    wp (naive n ptr set inv b) (Done n set.length (linkBlock b)) := by
  unfold naive
  rw [wp_bind]
  refine forRange_wp' (fun i (s : St) => s.ptr.length = ptr.length ∧ s.set.length = set.length ∧
      s.inv.length = inv.length ∧ s.pos = i ∧ s.idx = runs (linkBlock b) i ∧
      s.set.take i = List.range i ∧ (∀ v, v < i → s.inv.getD v 0 = grp (linkBlock b) v) ∧
      ∀ v, v < i → Start (linkBlock b) v → s.ptr.getD (grp (linkBlock b) v) 0 = v)
    (Nat.zero_le _) ⟨rfl, rfl, rfl, rfl, rfl, by simp, by intro v hv; omega, by intro v hv; omega⟩
    ?_ ?_
  · rintro i s _ hin ⟨h1, h2, h3, h4, h5, h6, h7, h8⟩
    rw [if_neg (by omega)]
    have hr := runs_le (link := linkBlock b) i
    rw [wp_bind]
    have first : wp (if i % b = 0 then do
          let ptr ← wr s.ptr s.idx s.pos
          ok { s with ptr := ptr, idx := s.idx + 1 }
        else ok s) (fun t => t.ptr.length = ptr.length ∧ t.set = s.set ∧ t.inv = s.inv ∧
          t.pos = i ∧ t.idx = grp (linkBlock b) i + 1 ∧
          ∀ v, v < i + 1 → Start (linkBlock b) v → t.ptr.getD (grp (linkBlock b) v) 0 = v) := by
      by_cases hm : i % b = 0
      · have hst : Start (linkBlock b) i := start_block.2 hm
        have hg : runs (linkBlock b) i = grp (linkBlock b) i := by
          cases i with
          | zero => rfl
          | succ i => rw [runs, grp_start hst]
        rw [if_pos hm, wr_eq (by omega), ok_bind, wp_ok]
        refine ⟨by simpa using h1, rfl, rfl, h4, by dsimp only; omega, fun v hv hsv => ?_⟩
        dsimp only
        rw [getD_set, h4]
        by_cases hvi : v = i
        · subst hvi
          rw [if_pos ⟨by omega, by omega⟩]
        · rw [if_neg, h8 v (by omega) hsv]
          rintro ⟨hc, _⟩
          have := start_lt hst (u := v) (by omega)
          omega
      · rw [if_neg hm, wp_ok]
        have hg : runs (linkBlock b) i = grp (linkBlock b) i + 1 := by
          cases i with
          | zero => simp at hm
          | succ i => rw [runs, grp, if_pos (by simp [linkBlock, hm])]
        refine ⟨h1, rfl, rfl, h4, by omega, fun v hv hsv => ?_⟩
        have : v ≠ i := by rintro rfl; exact hm (start_block.1 hsv)
        exact h8 v (by omega) hsv
    refine wp_mono first ?_
    rintro t ⟨t1, t2, t3, t4, t5, t6⟩
    rw [wr_eq (by rw [t2]; omega), ok_bind, wr_eq (by rw [t3]; omega), ok_bind, wp_ok]
    refine ⟨t1, by simp [t2, h2], by simp [t3, h3], by dsimp only; omega,
      by dsimp only; rw [runs]; exact t5, ?_, ?_, t6⟩
    · dsimp only
      rw [t4, t2, LevelSet.take_set_succ _ _ _ (by omega), h6, List.range_succ]
    · intro v hv
      dsimp only
      rw [getD_set, t3]
      by_cases hvi : i = v
      · subst hvi
        rw [if_pos ⟨rfl, by omega⟩, t5, Nat.add_sub_cancel]
      · rw [if_neg (fun hc => hvi hc.1), h7 v (by omega)]
  · rintro s ⟨h1, h2, h3, h4, h5, h6, h7, h8⟩
    have hr := runs_le (link := linkBlock b) n
    rw [wr_eq (by omega), ok_bind, wp_ok]
    refine ⟨⟨h2, hs⟩, by dsimp only; omega, by dsimp only; rw [List.length_set]; omega,
      h6, h7, h5, ?_, ?_⟩
    · intro v hv hst
      dsimp only
      rw [getD_set, if_neg, h8 v hv hst]
      rintro ⟨hc, _⟩
      have := grp_lt_runs (link := linkBlock b) hv
      omega
    · dsimp only
      rw [getD_set, if_pos ⟨rfl, by omega⟩]

end Verif.RunGroup
