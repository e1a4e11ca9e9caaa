import Verif.Model.Collection
import Verif.Props.RunGroup
import Verif.Props.Stat

/-!
# C105: `CollectionGrouping` (src/Group/Group.cpp)
-/

namespace Verif.Collect
open Res Csc RunGroup

variable {g : Csc}

/-! ## Outcomes -/

/-- The outcome is a value or undefined behaviour. -/
def Plain {α : Type} (r : Res α) : Prop := r = ub ∨ ∃ a, r = ok a

theorem Plain.ok' {α : Type} (a : α) : Plain (ok a) := .inr ⟨a, rfl⟩

theorem Plain.rd' {α : Type} (l : List α) (k : Nat) : Plain (rd l k) := by
  unfold rd
  split
  · exact .ok' _
  · exact .inl rfl

theorem Plain.wr' {α : Type} (l : List α) (k : Nat) (a : α) : Plain (wr l k a) := by
  unfold wr
  split
  · exact .ok' _
  · exact .inl rfl

theorem Plain.bind' {α β : Type} {r : Res α} {f : α → Res β} (h : Plain r) (hf : ∀ a, Plain (f a)) :
    Plain (r >>= f) := by
  rcases h with h | ⟨a, h⟩
  · rw [h]; exact .inl rfl
  · rw [h]; exact hf a

theorem Plain.forRange' {σ : Type} {f : Nat → σ → Res σ} (hf : ∀ i s, Plain (f i s)) (lo hi : Nat) (s : σ) :
    Plain (forRange lo hi f s) := by
  unfold forRange
  generalize hi - lo = c
  induction c generalizing lo s with
  | zero => exact .ok' _
  | succ c ih => exact .bind' (hf lo s) (fun s' => ih (lo + 1) s')

theorem plain_childSet (ix inv : List Nat) (lo hi e : Nat) : Plain (Super.childSet ix inv lo hi e) := by
  unfold Super.childSet
  refine .forRange' (fun i s => .bind' (.rd' _ _) (fun v => ?_)) _ _ _
  split
  · exact .bind' (.rd' _ _) (fun _ => .ok' _)
  · exact .ok' _

theorem plain_copyTo (l : List Nat) (a : Nat) (s : List Nat) : Plain (Super.copyTo l a s) := by
  unfold Super.copyTo
  exact .forRange' (fun i s => .bind' (.rd' _ _) (fun v => .wr' _ _ _)) _ _ _

theorem plain_sortRange (l : List Nat) (a b : Nat) : Plain (Hdagg.sortRange l a b) := by
  unfold Hdagg.sortRange
  split
  · exact .ok' _
  · exact .inl rfl

/-! ## The compressed graph -/

/-- The loop over the groups reads `group_set[group_set_ptr[num]]`, one element after the last one. -/
theorem build_ub {n : Nat} {link : Nat → Bool} {o : Out} (hn : 0 < n) (h : Done n n link o) (p ix nodes edges : List Nat)
    (h0 : 0 < nodes.length) : build p ix o nodes edges = ub := by
  have hnum : 0 < o.num := by
    rw [h.num]
    cases n with
    | zero => omega
    | succ n => rw [runs]; omega
  unfold build
  rw [wr_eq h0, ok_bind]
  refine Stat.forRange_ub (fun _ => True) (j := o.num - 1) (Nat.zero_le _) (by omega) trivial ?_ ?_
  · intro i s _ _ _
    have : Plain (do
        let x ← rd o.ptr i
        let b ← rd o.set x
        let y ← rd o.ptr (i + 1)
        let e ← rd o.set y
        let lo ← rd p b
        let hi ← rd p e
        let buf ← Super.childSet ix o.inv lo hi e
        let buf := Super.insertSet i buf
        let a ← rd s.1 i
        let nodes ← wr s.1 (i + 1) (a + buf.length)
        let edges ← Super.copyTo buf a s.2
        let edges ← Hdagg.sortRange edges a (a + buf.length)
        ok (nodes, edges)) :=
      .bind' (.rd' _ _) fun _ => .bind' (.rd' _ _) fun _ => .bind' (.rd' _ _) fun _ => .bind' (.rd' _ _) fun _ =>
        .bind' (.rd' _ _) fun _ => .bind' (.rd' _ _) fun _ => .bind' (plain_childSet _ _ _ _ _) fun _ =>
        .bind' (.rd' _ _) fun _ => .bind' (.wr' _ _ _) fun _ => .bind' (plain_copyTo _ _ _) fun _ =>
        .bind' (plain_sortRange _ _ _) fun _ => .ok' _
    rcases this with h | ⟨a, h⟩
    · exact .inl h
    · exact .inr (wp_iff.2 ⟨a, h, trivial⟩)
  · intro s _
    have hl := h.lenPtr
    have hs := h.lenSet.1
    have hlast := h.last
    rw [rd_getD 0 (by omega), ok_bind]
    rcases Plain.rd' o.set (o.ptr.getD (o.num - 1) 0) with e | ⟨b, e⟩
    · rw [e]; rfl
    · rw [e, ok_bind, show o.num - 1 + 1 = o.num by omega, rd_getD 0 (by omega), ok_bind, hlast]
      have : rd o.set n = ub := by
        unfold rd
        rw [List.getElem?_eq_none (by omega)]
      rw [this]
      rfl

/-! ## The groups -/

/-- Invariant of the loop over the nodes. -/
structure Inv (n : Nat) (link : Nat → Bool) (v : Nat) (o : Out) : Prop where
  lenSet : o.set.length = n
  lenInv : o.inv.length = n
  lenPtr : o.ptr.length = n + 1
  num : o.num = grp link v
  set : ∀ u, u < v → o.set.getD u 0 = u
  inv : ∀ u, u < v → o.inv.getD u 0 = grp link u
  start : ∀ u, u ≤ v → Start link u → o.ptr.getD (grp link u) 0 = u
  begin_le : o.ptr.getD o.num 0 ≤ v
  count : o.ptr.getD (o.num + 1) 0 = v - o.ptr.getD o.num 0
  rest : ∀ j, o.num + 1 < j → o.ptr.getD j 0 = 0

theorem fresh_inv (n : Nat) (link : Nat → Bool) :
    Inv n link 0 { fresh n with ptr := (List.replicate (n + 1) 0).set 0 0 } := by
  have hz : ∀ j, ((List.replicate (n + 1) 0).set 0 0).getD j 0 = 0 := by
    intro j
    rw [getD_set]
    split
    · rfl
    · rw [List.getD_eq_getElem?_getD, List.getElem?_replicate]
      split <;> rfl
  refine ⟨by simp [fresh], by simp [fresh], by simp, rfl, by omega, by omega, ?_, ?_, ?_, ?_⟩
  · intro u hu _
    have : u = 0 := by omega
    subst this
    exact hz _
  · exact Nat.le_of_eq (hz _)
  · dsimp only
    rw [hz, hz]
  · intro j _
    exact hz j

theorem Inv.done {n : Nat} {link : Nat → Bool} {o : Out} (hlast : ∀ i, link i = true → i + 1 < n)
    (h : Inv n link n o) : Done n n link o := by
  have hrun : grp link n = runs link n := by
    cases n with
    | zero => rfl
    | succ n =>
      have : link n = false := by
        cases e : link n with
        | false => rfl
        | true => have := hlast n e; omega
      rw [grp, runs, if_neg (by simp [this])]
  have hnum := h.num
  have hle := grp_le (link := link) n
  refine ⟨⟨h.lenSet, Nat.le_refl _⟩, by rw [h.lenInv], by rw [h.lenPtr]; omega, ?_, h.inv, by rw [hnum, hrun],
    fun v hv hs => h.start v (by omega) hs, ?_⟩
  · apply List.ext_getElem
    · simp [h.lenSet]
    · intro k k1 k2
      have hk : k < n := by simpa using k2
      have := h.set k hk
      rw [List.getD_eq_getElem _ _ (by rw [h.lenSet]; exact hk)] at this
      rw [List.getElem_take, List.getElem_range, this]
  · rw [hnum]
    refine h.start n (Nat.le_refl n) ?_
    cases n with
    | zero => exact .inl rfl
    | succ n =>
      right
      rw [Nat.add_sub_cancel]
      cases e : link n with
      | false => rfl
      | true => have := hlast n e; omega

theorem inc_eq {l : List Nat} {k d : Nat} (h : k < l.length) : inc l k d = ok (l.set k (l.getD k 0 + d)) := by
  unfold inc
  rw [rd_getD 0 h, ok_bind, wr_eq h]

/-- One node is added to the current group. -/
theorem Inv.join {n : Nat} {link : Nat → Bool} {v : Nat} {o : Out} (hv : v < n) (h : Inv n link v o)
    (hl : link v = true) : Inv n link (v + 1) ⟨o.num, o.ptr.set (o.num + 1) (o.ptr.getD (o.num + 1) 0 + 1),
      o.set.set v v, o.inv.set v o.num⟩ := by
  have hle := grp_le (link := link) v
  have hnum := h.num
  have hg : grp link (v + 1) = grp link v := by rw [grp, if_pos hl]
  have l1 := h.lenSet
  have l2 := h.lenInv
  have l3 := h.lenPtr
  have hb := h.begin_le
  have hp : ∀ j, j ≠ o.num + 1 → (o.ptr.set (o.num + 1) (o.ptr.getD (o.num + 1) 0 + 1)).getD j 0 = o.ptr.getD j 0 := by
    intro j hj
    rw [getD_set, if_neg (fun e => hj e.1.symm)]
  refine ⟨by simpa using l1, by simpa using l2, by simpa using l3, by rw [hg]; exact hnum, ?_, ?_, ?_, ?_, ?_, ?_⟩
  · intro u hu
    dsimp only
    rw [getD_set]
    by_cases e : v = u
    · rw [if_pos ⟨e, by omega⟩, e]
    · rw [if_neg (fun hh => e hh.1)]
      exact h.set u (by omega)
  · intro u hu
    dsimp only
    rw [getD_set]
    by_cases e : v = u
    · rw [if_pos ⟨e, by omega⟩, ← e, hnum]
    · rw [if_neg (fun hh => e hh.1)]
      exact h.inv u (by omega)
  · intro u hu hs
    have hne : u ≠ v + 1 := by
      rintro rfl
      rcases hs with hs | hs
      · omega
      · rw [Nat.add_sub_cancel, hl] at hs
        cases hs
    have hm := grp_mono (link := link) (show u ≤ v by omega)
    dsimp only
    rw [hp _ (by omega)]
    exact h.start u (by omega) hs
  · dsimp only
    rw [hp _ (by omega)]
    omega
  · dsimp only
    rw [hp o.num (by omega), getD_set, if_pos ⟨rfl, by omega⟩, h.count]
    omega
  · intro j hj
    dsimp only at hj ⊢
    rw [hp j (by omega)]
    exact h.rest j hj

/-- One node is added to the current group and the group is closed. -/
theorem Inv.close {n : Nat} {link : Nat → Bool} {v : Nat} {o : Out} (hv : v < n) (h : Inv n link v o)
    (hl : link v = false) : Inv n link (v + 1) ⟨o.num + 1,
      o.ptr.set (o.num + 1) (o.ptr.getD (o.num + 1) 0 + o.ptr.getD o.num 0 + 1), o.set.set v v, o.inv.set v o.num⟩ := by
  have hle := grp_le (link := link) v
  have hnum := h.num
  have hg : grp link (v + 1) = grp link v + 1 := by rw [grp, if_neg (by simp [hl])]
  have l1 := h.lenSet
  have l2 := h.lenInv
  have l3 := h.lenPtr
  have hb := h.begin_le
  have hc := h.count
  obtain ⟨x, hx⟩ : ∃ x, x = o.ptr.getD (o.num + 1) 0 + o.ptr.getD o.num 0 + 1 := ⟨_, rfl⟩
  have hxv : x = v + 1 := by omega
  rw [← hx, hxv]
  have hp : ∀ j, j ≠ o.num + 1 → (o.ptr.set (o.num + 1) (v + 1)).getD j 0 = o.ptr.getD j 0 := by
    intro j hj
    rw [getD_set, if_neg (fun e => hj e.1.symm)]
  have hp' : (o.ptr.set (o.num + 1) (v + 1)).getD (o.num + 1) 0 = v + 1 := by
    rw [getD_set, if_pos ⟨rfl, by omega⟩]
  refine ⟨by simpa using l1, by simpa using l2, by simpa using l3, by rw [hg]; dsimp only; omega, ?_, ?_, ?_, ?_, ?_, ?_⟩
  · intro u hu
    dsimp only
    rw [getD_set]
    by_cases e : v = u
    · rw [if_pos ⟨e, by omega⟩, e]
    · rw [if_neg (fun hh => e hh.1)]
      exact h.set u (by omega)
  · intro u hu
    dsimp only
    rw [getD_set]
    by_cases e : v = u
    · rw [if_pos ⟨e, by omega⟩, ← e, hnum]
    · rw [if_neg (fun hh => e hh.1)]
      exact h.inv u (by omega)
  · intro u hu hs
    dsimp only
    by_cases e : u = v + 1
    · subst e
      rw [hg, ← hnum, hp']
    · have hm := grp_mono (link := link) (show u ≤ v by omega)
      rw [hp _ (by omega)]
      exact h.start u (by omega) hs
  · dsimp only
    rw [hp']
  · dsimp only
    rw [hp', hp _ (by omega), h.rest _ (by omega)]
    omega
  · intro j hj
    dsimp only at hj ⊢
    rw [hp j (by omega)]
    exact h.rest j (by omega)

theorem cnGroups_spec (hwf : g.WF) : wp (cnGroups g.n g.p g.i) (Done g.n g.n (linkCsc g)) := by
  unfold cnGroups
  rw [wr_eq (by simp [fresh]), ok_bind]
  refine forRange_wp' (fun v o => Inv g.n (linkCsc g) v o) (Nat.zero_le _) (fresh_inv _ _) ?_
    (fun o h => h.done (fun i hi => linkCsc_lt hwf hi))
  rintro v o _ hv h
  have hle := grp_le (link := linkCsc g) v
  have hnum := h.num
  have l3 := h.lenPtr
  have hb := hwf.bound
  have hpl := hwf.ptr_le (a := v + 1) (by omega)
  rw [wr_eq (by rw [h.lenSet]; exact hv), ok_bind, hwf.rd_p (by omega), ok_bind, hwf.rd_p (by omega), ok_bind]
  have hchild : (if 1 < g.ptr (v + 1) - g.ptr v then do
      let c ← rd g.i (g.ptr v + 1)
      ok (some c)
    else ok none) = ok (if 1 < g.ptr (v + 1) - g.ptr v then some (g.idx (g.ptr v + 1)) else none) := by
    by_cases e : 1 < g.ptr (v + 1) - g.ptr v
    · rw [if_pos e, if_pos e, rd_getD 0 (by omega), ok_bind]
      rfl
    · rw [if_neg e, if_neg e]
  rw [hchild, ok_bind, wr_eq (by rw [h.lenInv]; exact hv), ok_bind]
  have hiff : ((if 1 < g.ptr (v + 1) - g.ptr v then some (g.idx (g.ptr v + 1)) else none) = some (v + 1)) ↔
      linkCsc g v = true := by
    unfold linkCsc
    rw [decide_eq_true_iff]
    by_cases e : 1 < g.ptr (v + 1) - g.ptr v
    · rw [if_pos e, Option.some.injEq]
      constructor
      · intro h; exact ⟨hv, by omega, h⟩
      · rintro ⟨_, _, h⟩; exact h
    · rw [if_neg e]
      constructor
      · intro h; cases h
      · rintro ⟨_, h, _⟩; omega
  by_cases hl : linkCsc g v = true
  · rw [if_pos (hiff.2 hl), inc_eq (by omega), ok_bind, wp_ok]
    exact h.join hv hl
  · rw [if_neg (fun hh => hl (hiff.1 hh)), rd_getD 0 (by omega), ok_bind, inc_eq (by omega), ok_bind,
      inc_eq (by rw [List.length_set]; omega), ok_bind, wp_ok, List.set_set, getD_set, if_pos ⟨rfl, by omega⟩]
    exact h.close hv (by simpa using hl)

/-- **C105**: the groups of `startCNGrouping` (before the compressed graph is built): a partition into non-empty
runs; `i` and `i + 1` share a group exactly if the second entry of column `i` is `i + 1`. -/
theorem C105_cn_groups (hwf : g.WF) :
    ∃ o, cnGroups g.n g.p g.i = ok o ∧ RunPartition o g.n ∧
      ∀ i, i + 1 < g.n → (Out.Same o i (i + 1) ↔ ∃ d rest, g.col i = d :: (i + 1) :: rest) := by
  obtain ⟨o, h1, h2⟩ := wp_iff.1 (cnGroups_spec hwf)
  exact ⟨o, h1, h2.runPartition, fun i hi => (h2.same_iff hi).trans (linkCsc_iff hwf (Nat.lt_of_succ_lt hi))⟩

/-- **C105**, negative: for every non-empty graph the call reads `group_set` after its end. -/
theorem C105_cn_ub (hwf : g.WF) (hn : 0 < g.n) : startCN g.n g.p g.i = ub := by
  obtain ⟨o, h1, h2⟩ := wp_iff.1 (cnGroups_spec hwf)
  unfold startCN
  rw [hwf.rd_p (Nat.le_refl _), ok_bind, h1, ok_bind, build_ub hn h2 _ _ _ _ (by simp)]
  rfl

/-! ## Single children -/

theorem inputEdges_ok (hwf : g.WF) : wp (inputEdges g.n g.p g.i) (fun l => l.length = g.n) := by
  unfold inputEdges
  refine forRange_wp (fun _ (l : List Nat) => l.length = g.n) (Nat.zero_le _) (by simp) ?_
  intro v l _ hv h
  have hb := hwf.bound
  have hpl := hwf.ptr_le (a := v + 1) (by omega)
  rw [hwf.rd_p (by omega), ok_bind, hwf.rd_p (by omega), ok_bind]
  refine forRange_wp (fun _ (l : List Nat) => l.length = g.n) (hwf.mono v hv) h ?_
  intro k l hk1 hk2 h
  have := hwf.idx_lt hv hk1 hk2
  rw [rd_getD 0 (by omega), ok_bind, inc_eq (by rw [h]; exact this), wp_ok]
  simpa using h

theorem scGroups_spec (hwf : g.WF) (fuel : Nat) :
    wp (scGroups (fuel + 1) g.n g.p g.i) (fun s => Done g.n g.n (fun _ => false) s.out ∧ s.cnt = g.n) := by
  unfold scGroups
  rw [wp_bind]
  refine wp_mono (inputEdges_ok hwf) ?_
  intro inE _
  rw [wr_eq (by simp [fresh]), ok_bind]
  refine forRange_wp' (fun v (s : Single) => Inv g.n (fun _ => false) v s.out ∧ s.grouped.length = g.n ∧ s.cnt = v ∧
      ∀ u, v ≤ u → s.grouped.getD u false = false) (Nat.zero_le _)
    ⟨fresh_inv _ _, by simp, rfl, ?_⟩ ?_ ?_
  · intro u _
    dsimp only
    rw [List.getD_eq_getElem?_getD, List.getElem?_replicate]
    split <;> rfl
  · rintro v ⟨o, grouped, cnt, head⟩ _ hv ⟨h, hg1, hcnt, hg2⟩
    dsimp only at h hg1 hcnt hg2 ⊢
    subst hcnt
    have hle := grp_le (link := fun _ => false) cnt
    have hnum := h.num
    have l3 := h.lenPtr
    have hb := hwf.bound
    have hpl := hwf.ptr_le (a := cnt + 1) (by omega)
    rw [rd_getD false (by omega), ok_bind, hg2 cnt (Nat.le_refl _), if_neg (by decide), wr_eq (by omega), ok_bind,
      wr_eq (by rw [h.lenInv]; exact hv), ok_bind, wr_eq (by rw [h.lenSet]; exact hv), ok_bind, inc_eq (by omega),
      ok_bind]
    unfold chain
    rw [loopF]
    dsimp only
    rw [hwf.rd_p (by omega), ok_bind, hwf.rd_p (by omega), ok_bind]
    obtain ⟨ch, hch, htk⟩ : ∃ ch, (if 1 < g.ptr (cnt + 1) - g.ptr cnt then do
        let x ← ok (g.ptr cnt)
        let c ← rd g.i (x + 1)
        ok (some c)
      else ok none) = ok ch ∧ takes inE (g.ptr (cnt + 1) - g.ptr cnt) ch = ok none := by
      by_cases e : 1 < g.ptr (cnt + 1) - g.ptr cnt
      · refine ⟨some (g.i.getD (g.ptr cnt + 1) 0), ?_, ?_⟩
        · rw [if_pos e, ok_bind, rd_getD 0 (by omega), ok_bind]
        · unfold takes
          dsimp only
          rw [if_neg (by omega)]
      · exact ⟨none, by rw [if_neg e], rfl⟩
    rw [hch, ok_bind, htk, ok_bind]
    dsimp only
    rw [rd_getD 0 (by rw [List.length_set]; omega), ok_bind, inc_eq (by rw [List.length_set]; omega), ok_bind, ok_bind,
      wp_ok]
    dsimp only
    rw [List.set_set, getD_set, if_pos ⟨rfl, by omega⟩, getD_set, if_neg (by omega)]
    refine ⟨?_, by simpa using hg1, rfl, ?_⟩
    · have := h.close hv rfl
      rwa [show o.ptr.getD (o.num + 1) 0 + o.ptr.getD o.num 0 + 1
        = o.ptr.getD (o.num + 1) 0 + 1 + o.ptr.getD o.num 0 by omega] at this
    · intro u hu
      rw [getD_set, if_neg (by omega)]
      exact hg2 u (by omega)
  · rintro s ⟨h, _, h2, _⟩
    exact ⟨h.done (by simp), h2⟩

/-- **C105**: `Input_Edges` has for every node the number of all entries in its row, the diagonal entry included. -/
theorem C105_input_edges (hwf : g.WF) :
    ∃ l, inputEdges g.n g.p g.i = ok l ∧ l.length = g.n ∧
      ∀ r, r < g.n → l.getD r 0 = ((List.range g.n).map (fun c => (g.col c).count r)).sum := by
  refine wp_iff.1 ?_
  unfold inputEdges
  refine forRange_wp (fun v (l : List Nat) => l.length = g.n ∧
    ∀ r, r < g.n → l.getD r 0 = ((List.range v).map (fun c => (g.col c).count r)).sum) (Nat.zero_le _)
    ⟨by simp, fun r hr => by rw [getD_replicate _ _ _ _ hr]; rfl⟩ ?_
  rintro v l _ hv ⟨h1, h2⟩
  have hb := hwf.bound
  have hpl := hwf.ptr_le (a := v + 1) (by omega)
  have hmono := hwf.mono v hv
  rw [hwf.rd_p (by omega), ok_bind, hwf.rd_p (by omega), ok_bind]
  refine forRange_wp' (fun k (l : List Nat) => l.length = g.n ∧ ∀ r, r < g.n → l.getD r 0
    = ((List.range v).map (fun c => (g.col c).count r)).sum + ((g.col v).take (k - g.ptr v)).count r) hmono
    ⟨h1, fun r hr => by rw [h2 r hr]; simp⟩ ?_ ?_
  · rintro k l hk1 hk2 ⟨h1, h2⟩
    have hlt := hwf.idx_lt hv hk1 hk2
    rw [rd_getD 0 (by omega), ok_bind, inc_eq (by rw [h1]; exact hlt), wp_ok]
    refine ⟨by simpa using h1, fun r hr => ?_⟩
    have hcol : (g.col v).take (k + 1 - g.ptr v) = (g.col v).take (k - g.ptr v) ++ [g.i.getD k 0] := by
      have hl := hwf.col_length hv
      rw [show k + 1 - g.ptr v = k - g.ptr v + 1 by omega, List.take_succ_eq_append_getElem (by omega)]
      congr 2
      unfold Csc.col
      rw [List.getElem_take, List.getElem_drop, List.getD_eq_getElem _ _ (by omega)]
      congr 1
      omega
    rw [hcol, List.count_append, List.count_singleton, getD_set]
    by_cases e : g.i.getD k 0 = r
    · rw [if_pos ⟨e, by omega⟩, e, h2 r hr]
      simp
      omega
    · rw [if_neg (fun hh => e hh.1), h2 r hr, if_neg (by simpa using e), Nat.add_zero]
  · rintro l ⟨h1, h2⟩
    refine ⟨h1, fun r hr => ?_⟩
    rw [h2 r hr, List.take_of_length_le (by rw [hwf.col_length hv]), List.range_succ]
    simp

/-- **C105**, negative: `startSingleChildGrouping` never joins two nodes: the child is only looked up for nodes
with more than one entry and only taken for nodes with exactly one. -/
theorem C105_single_never_groups (hwf : g.WF) (fuel : Nat) :
    ∃ s, scGroups (fuel + 1) g.n g.p g.i = ok s ∧ RunPartition s.out g.n ∧ s.cnt = g.n ∧
      ∀ i, i + 1 < g.n → ¬ Out.Same s.out i (i + 1) := by
  obtain ⟨s, h1, h2, h3⟩ := wp_iff.1 (scGroups_spec hwf fuel)
  exact ⟨s, h1, h2.runPartition, h3, fun i hi hc => by simpa using (h2.same_iff hi).1 hc⟩

/-- **C105**, negative: this call, too, reads `group_set` after its end for every non-empty graph. -/
theorem C105_single_ub (hwf : g.WF) (hn : 0 < g.n) (fuel : Nat) : startSC (fuel + 1) g.n g.p g.i = ub := by
  obtain ⟨s, h1, h2, _⟩ := wp_iff.1 (scGroups_spec hwf fuel)
  unfold startSC
  rw [hwf.rd_p (Nat.le_refl _), ok_bind, h1, ok_bind, build_ub hn h2 _ _ _ _ (by simp)]
  rfl

/-- A path of three nodes: one group for `startCNGrouping`, three for `startSingleChildGrouping`. -/
example : cnGroups 3 [0, 2, 4, 5] [0, 1, 1, 2, 2] = ok ⟨1, [0, 3, 0, 0], [0, 1, 2], [0, 0, 0]⟩ ∧
    (do let s ← scGroups 1 3 [0, 2, 4, 5] [0, 1, 1, 2, 2]; ok s.out) = ok ⟨3, [0, 1, 2, 3], [0, 1, 2], [0, 1, 2]⟩ ∧
    startCN 3 [0, 2, 4, 5] [0, 1, 1, 2, 2] = ub ∧ startCN 0 [0] [] = ok (⟨0, [0], [], []⟩, [0], []) := by decide

end Verif.Collect
