import Verif.Model.PostGroup
import Verif.Proof.Chain
import Verif.Proof.GroupDag
import Verif.Props.Chain

/-! # `computePostOrderAndGroup` -/

namespace Verif.PostGroup
open Res
open Verif.Chain (kids preds col_eq)

variable {g : Csc}

/-- No column has repeated entries. -/
def NoRep (g : Csc) : Prop := ∀ u, u < g.n → (g.col u).Nodup

theorem kids_nodup (hwf : g.WF) (hf : g.DiagFirst) (hs : NoRep g) {u : Nat} (hu : u < g.n) :
    (kids g u).Nodup ∧ u ∉ kids g u := by
  have := hs u hu
  rw [col_eq hwf hf hu, List.nodup_cons] at this
  exact ⟨this.2, this.1⟩

theorem dep_kids (hwf : g.WF) (hf : g.DiagFirst) (hs : NoRep g) {u v : Nat} (hu : u < g.n) :
    g.Dep u v ↔ v ∈ kids g u := by
  constructor
  · rintro ⟨_, h1, h2⟩
    rw [col_eq hwf hf hu] at h1
    rcases List.mem_cons.1 h1 with h | h
    · exact absurd h.symm h2
    · exact h
  · intro h
    refine ⟨hu, by rw [col_eq hwf hf hu]; exact List.mem_cons_of_mem _ h, ?_⟩
    rintro rfl
    exact (kids_nodup hwf hf hs hu).2 h

theorem oneDiag (hwf : g.WF) (hf : g.DiagFirst) (hs : NoRep g) : g.OneDiag := by
  intro u hu
  rw [col_eq hwf hf hu, List.count_cons_self, List.count_eq_zero.2 (kids_nodup hwf hf hs hu).2]

theorem mem_preds (hwf : g.WF) (hf : g.DiagFirst) (hs : NoRep g) {u v : Nat} :
    u ∈ preds g g.n v ↔ g.Dep u v := by
  unfold preds
  rw [List.mem_filter, List.mem_range, decide_eq_true_eq]
  constructor
  · rintro ⟨h1, h2⟩; exact (dep_kids hwf hf hs h1).2 h2
  · intro h; exact ⟨h.1, (dep_kids hwf hf hs h.1).1 h⟩

theorem inDegree_count (hwf : g.WF) (hf : g.DiagFirst) (hs : NoRep g) :
    wp (PostOrder.inDegree g.n g.p g.i) (fun deg => deg.length = g.n ∧
      ∀ v, v < g.n → deg.getD v 0 = (preds g g.n v).length) := by
  unfold PostOrder.inDegree
  refine forRange_wp' (fun k deg => deg.length = g.n ∧
      ∀ v, v < g.n → deg.getD v 0 = (preds g k v).length) (Nat.zero_le _) ?_ ?_ (fun _ h => h)
  · refine ⟨by simp, fun v hv => ?_⟩
    rw [getD_replicate _ _ _ _ hv]; simp [preds]
  · intro u deg _ hu ⟨hl, hd⟩
    rw [hwf.rd_p (by omega), hwf.rd_p (by omega)]
    simp only [ok_bind]
    have h1 := hwf.idx_first hf hu
    have hmn : g.ptr (u + 1) ≤ g.ptr g.n := hwf.mono_le (by omega) (le_refl _)
    have hb := hwf.bound
    refine forRange_wp' (fun j deg => deg.length = g.n ∧
      ∀ v, v < g.n → deg.getD v 0 = (preds g u v).length + (slice g.i (g.ptr u + 1) j).count v)
      (by omega) ?_ ?_ ?_
    · refine ⟨hl, fun v hv => ?_⟩
      rw [hd v hv, slice_self]; simp
    · intro j deg h2 h3 ⟨hl, hd⟩
      have hlt := hwf.idx_lt hu (j := j) (by omega) h3
      rw [hwf.rd_i (by omega)]
      simp only [ok_bind]
      rw [rd_getD 0 (by omega)]
      simp only [ok_bind]
      rw [wr_eq (by omega)]
      simp only [wp_ok]
      refine ⟨by simpa using hl, fun v hv => ?_⟩
      have hj : g.i[j]? = some (g.idx j) := by
        rw [Csc.idx, List.getD_eq_getElem?_getD, List.getElem?_eq_getElem (by omega)]; rfl
      rw [getD_set, slice_succ h2 hj, List.count_append]
      by_cases he : g.idx j = v
      · rw [if_pos ⟨he, by omega⟩, hd _ hlt, he, List.count_singleton_self]; omega
      · rw [if_neg (by tauto), hd v hv, List.count_singleton, if_neg (by simpa using he)]
        omega
    · intro deg ⟨hl, hd⟩
      refine ⟨hl, fun v hv => ?_⟩
      rw [hd v hv]
      show (preds g u v).length + (kids g u).count v = _
      have e : preds g (u + 1) v = preds g u v ++ if v ∈ kids g u then [u] else [] := by
        unfold preds
        rw [List.range_succ, List.filter_append]
        congr 1
        by_cases h : v ∈ kids g u <;> simp [h]
      rw [e, List.length_append]
      have hnd : (kids g u).Nodup := (kids_nodup hwf hf hs hu).1
      by_cases h : v ∈ kids g u
      · rw [if_pos h, List.count_eq_one_of_mem hnd h]; rfl
      · rw [if_neg h, List.count_eq_zero_of_not_mem h]; rfl

theorem link_iff (hwf : g.WF) (hf : g.DiagFirst) (hs : NoRep g) {h c : Nat} (hh : h < g.n) :
    g.Link h c ↔ kids g h = [c] ∧ (preds g g.n c).length = 1 := by
  constructor
  · intro hl
    constructor
    · have h1 := (dep_kids hwf hf hs hh).1 hl.1
      have h2 : ∀ x ∈ kids g h, x = c := fun x hx => hl.2.1 x ((dep_kids hwf hf hs hh).2 hx)
      have hnd : (kids g h).Nodup := (kids_nodup hwf hf hs hh).1
      exact List.perm_singleton.1 ((List.perm_ext_iff_of_nodup hnd (List.nodup_singleton c)).2
        (fun a => by rw [List.mem_singleton]; exact ⟨h2 a, fun e => by rw [e]; exact h1⟩))
    · have h1 := (mem_preds hwf hf hs).2 hl.1
      have h2 : ∀ x ∈ preds g g.n c, x = h := fun x hx => hl.2.2 x ((mem_preds hwf hf hs).1 hx)
      have hnd : (preds g g.n c).Nodup := List.Nodup.filter _ List.nodup_range
      rw [List.perm_singleton.1 ((List.perm_ext_iff_of_nodup hnd (List.nodup_singleton h)).2
        (fun a => by rw [List.mem_singleton]; exact ⟨h2 a, fun e => by rw [e]; exact h1⟩))]
      rfl
  · rintro ⟨hk, hp⟩
    have hd : g.Dep h c := (dep_kids hwf hf hs hh).2 (by rw [hk]; simp)
    refine ⟨hd, ?_, ?_⟩
    · intro w hw
      have := (dep_kids hwf hf hs hh).1 hw
      rw [hk] at this
      simpa using this
    · intro w hw
      obtain ⟨a, ha⟩ := List.length_eq_one_iff.1 hp
      have h1 := (mem_preds hwf hf hs).2 hw
      have h2 := (mem_preds hwf hf hs).2 hd
      rw [ha, List.mem_singleton] at h1 h2
      rw [h1, h2]

theorem kids_length (hwf : g.WF) {u : Nat} (hu : u < g.n) :
    (kids g u).length = g.ptr (u + 1) - (g.ptr u + 1) :=
  slice_length (hwf.ptr_le (a := u + 1) hu)

theorem kids_one (hwf : g.WF) {u : Nat} (hu : u < g.n) (h : g.ptr (u + 1) = g.ptr u + 2) :
    kids g u = [g.idx (g.ptr u + 1)] := by
  have hle := hwf.ptr_le (a := u + 1) hu
  have hlt : g.ptr u + 1 < g.i.length := by omega
  unfold kids
  rw [h, show g.ptr u + 2 = g.ptr u + 1 + 1 from rfl, slice_one hlt, Csc.idx, List.getD_eq_getElem?_getD,
    List.getElem?_eq_getElem hlt]
  rfl

/-- The invariant of the grouping loop. -/
structure Inv (g : Csc) (post : List Nat) (i : Nat) (s : St) : Prop where
  cnt : s.cnt = i
  plen : s.ptr.length = s.num + 1
  psort : s.ptr.Pairwise (· < ·)
  first : s.ptr.getD 0 0 = 0
  last : s.ptr.getD s.num 0 ≤ i
  full : i = g.n → s.ptr.getD s.num 0 = i
  ilen : s.inv.length = g.n
  inv : ∀ k, k < i → ∃ j, s.inv.getD (post.getD k 0) 0 = j ∧ j ≤ s.num ∧ s.ptr.getD j 0 ≤ k ∧
    (j < s.num → k < s.ptr.getD (j + 1) 0)
  starts : ∀ q ∈ s.ptr, 0 < q → q < g.n → ¬ g.Link (post.getD (q - 1) 0) (post.getD q 0)
  links : ∀ q, 0 < q → q ≤ i → q < g.n → q ∉ s.ptr → g.Link (post.getD (q - 1) 0) (post.getD q 0)

theorem Inv.le {post : List Nat} {i : Nat} {s : St} (h : Inv g post i s) : ∀ q ∈ s.ptr, q ≤ i := by
  intro q hq
  obtain ⟨a, ha, rfl⟩ := List.getElem_of_mem hq
  have hl := h.last
  have hpl := h.plen
  rw [List.getD_eq_getElem?_getD, List.getElem?_eq_getElem (by omega)] at hl
  rcases Nat.lt_or_ge a s.num with h1 | h1
  · have := List.pairwise_iff_getElem.1 h.psort a s.num (by omega) (by omega) h1
    exact le_trans (le_of_lt this) hl
  · have : a = s.num := by omega
    subst this
    exact hl

theorem groupStep_wp (hwf : g.WF) (hf : g.DiagFirst) (hs : NoRep g) (junk : Nat) {deg post : List Nat}
    (hdl : deg.length = g.n) (hd : ∀ v, v < g.n → deg.getD v 0 = (preds g g.n v).length) (hT : PostOrder.Topo g post)
    {i : Nat} (hi : i < g.n) {s : St} (hI : Inv g post i s) :
    wp (groupStep false junk g.n g.p g.i deg post i s) (Inv g post (i + 1)) := by
  have hpl : post.length = g.n := by simpa using hT.perm.length_eq
  have hlt : ∀ k, k < g.n → post.getD k 0 < g.n := by
    intro k hk
    have : post.getD k 0 ∈ post := by
      rw [List.getD_eq_getElem?_getD, List.getElem?_eq_getElem (by omega)]
      exact List.getElem_mem _
    exact List.mem_range.1 (hT.perm.mem_iff.1 this)
  have hpn : post.Nodup := hT.perm.nodup_iff.2 List.nodup_range
  have hget : ∀ k, k < g.n → post[k]? = some (post.getD k 0) := fun k hk => getElem?_getD 0 (by omega)
  have hinj : ∀ a b, a < g.n → b < g.n → post.getD a 0 = post.getD b 0 → a = b := by
    intro a b ha hb e
    exact nodup_getElem?_inj hpn (by rw [hget a ha]) (by rw [hget b hb, e])
  obtain ⟨c, hc⟩ : ∃ c, c = post.getD i 0 := ⟨_, rfl⟩
  have hcn : c < g.n := hc ▸ hlt i hi
  have h1 := hwf.idx_first hf hcn
  have hle := hwf.ptr_le (a := c + 1) hcn
  -- the condition
  obtain ⟨b, hbt⟩ : ∃ b : Bool, b = true ↔ (i + 1 < g.n ∧ g.Link c (post.getD (i + 1) 0)) := by
    classical exact ⟨decide (i + 1 < g.n ∧ g.Link c (post.getD (i + 1) 0)), decide_eq_true_iff⟩
  have hstep : groupStep false junk g.n g.p g.i deg post i s
      = ok (if b = true then ⟨s.num, s.ptr, s.cnt + 1, s.inv.set c s.num⟩
        else ⟨s.num + 1, s.ptr ++ [s.cnt + 1], s.cnt + 1, s.inv.set c s.num⟩) := by
    unfold groupStep
    rw [rd_getD 0 (by omega), ok_bind, ← hc]
    by_cases hi1 : i + 1 < g.n
    · rw [if_pos hi1, rd_getD 0 (by omega), ok_bind, rd_getD 0 (by rw [hdl]; exact hlt _ hi1), ok_bind,
        hwf.rd_p (by omega), ok_bind, hd _ (hlt _ hi1)]
      have hjunk : ∃ x, readSecond false junk g.i (g.ptr c + 1) = ok x ∧
          (g.ptr (c + 1) = g.ptr c + 2 → x = g.idx (g.ptr c + 1)) := by
        unfold readSecond
        split
        · next h => exact ⟨_, rd_getD 0 h, fun _ => rfl⟩
        · next h => exact ⟨junk, rfl, fun e => by omega⟩
      obtain ⟨x, hx1, hx2⟩ := hjunk
      rw [hx1, ok_bind, ok_bind, hwf.rd_p (by omega), ok_bind]
      rw [ok_bind, wr_eq (by rw [hI.ilen]; exact hcn), ok_bind]
      dsimp only
      have hiff : (((preds g g.n (post.getD (i + 1) 0)).length : Int) = (g.ptr (c + 1) : Int) - g.ptr c - 1 ∧
          (preds g g.n (post.getD (i + 1) 0)).length = 1 ∧ x = post.getD (i + 1) 0) ↔ b = true := by
        rw [hbt, link_iff hwf hf hs hcn]
        constructor
        · rintro ⟨a1, a2, a3⟩
          have e : g.ptr (c + 1) = g.ptr c + 2 := by omega
          refine ⟨hi1, ?_, a2⟩
          rw [kids_one hwf hcn e, ← hx2 e, a3]
        · rintro ⟨-, a1, a2⟩
          have hkl := kids_length hwf hcn
          rw [a1, List.length_singleton] at hkl
          have e : g.ptr (c + 1) = g.ptr c + 2 := by omega
          refine ⟨by omega, a2, ?_⟩
          rw [kids_one hwf hcn e] at a1
          rw [hx2 e]
          simpa using a1
      by_cases hb : b = true
      · rw [if_pos hb, if_pos (hiff.2 hb)]
      · rw [if_neg hb, if_neg (fun h => hb (hiff.1 h))]
    · rw [if_neg hi1, ok_bind, hwf.rd_p (by omega), ok_bind, hwf.rd_p (by omega), ok_bind,
        wr_eq (by rw [hI.ilen]; exact hcn), ok_bind]
      have hb : b = false := by
        rw [← Bool.not_eq_true, hbt]; tauto
      rw [hb]
      dsimp only
      have hnokid : kids g c = [] := by
        rw [List.eq_nil_iff_forall_not_mem]
        intro v hv
        have hdep := (dep_kids hwf hf hs hcn).2 hv
        have hvm : v ∈ post := hT.perm.mem_iff.2 (List.mem_range.2 (hwf.dep_lt hdep).2)
        obtain ⟨a, ha⟩ := List.mem_iff_getElem?.1 hvm
        have := hT.topo c v i a hdep (by rw [hget i hi, hc]) ha
        have := (List.getElem?_eq_some_iff.1 ha).1
        omega
      have hkl := kids_length hwf hcn
      rw [hnokid, List.length_nil] at hkl
      rw [if_neg (by omega)]
      simp
  rw [hstep, wp_ok]
  have hle' := hI.le
  have hplen := hI.plen
  -- the new inverse map
  have hinvset : ∀ k, k < i → (s.inv.set c s.num).getD (post.getD k 0) 0 = s.inv.getD (post.getD k 0) 0 := by
    intro k hk
    rw [getD_set, if_neg]
    rintro ⟨e, -⟩
    have := hinj i k hi (by omega) (hc ▸ e)
    omega
  have hinvi : (s.inv.set c s.num).getD (post.getD i 0) 0 = s.num := by
    rw [getD_set, if_pos ⟨hc, by rw [hI.ilen]; exact hcn⟩]
  by_cases hb : b = true
  · rw [if_pos hb]
    obtain ⟨hb1, hb2⟩ := hbt.1 hb
    refine { cnt := by simp [hI.cnt], plen := hplen, psort := hI.psort, first := hI.first, last := ?_, full := ?_,
             ilen := by simpa using hI.ilen, inv := ?_, starts := hI.starts, links := ?_ }
    · have := hI.last; dsimp only; omega
    · intro e; omega
    · intro k hk
      dsimp only
      by_cases e : k = i
      · subst e
        exact ⟨s.num, hinvi, le_refl _, hI.last, fun h => absurd h (by omega)⟩
      · rw [hinvset k (by omega)]
        exact hI.inv k (by omega)
    · intro q h1 h2 h3 h4
      by_cases e : q = i + 1
      · subst e; rw [hc] at hb2; exact hb2
      · exact hI.links q h1 (by omega) h3 h4
  · rw [if_neg hb]
    have hgl : ∀ j, j ≤ s.num → (s.ptr ++ [s.cnt + 1]).getD j 0 = s.ptr.getD j 0 := by
      intro j hj
      rw [List.getD_eq_getElem?_getD, List.getD_eq_getElem?_getD, List.getElem?_append_left (by omega)]
    have hgn : (s.ptr ++ [s.cnt + 1]).getD (s.num + 1) 0 = i + 1 := by
      rw [List.getD_eq_getElem?_getD, List.getElem?_append_right (by omega), hplen, hI.cnt]
      simp
    refine { cnt := by simp [hI.cnt], plen := by simp [hplen], psort := ?_, first := ?_, last := ?_, full := ?_,
             ilen := by simpa using hI.ilen, inv := ?_, starts := ?_, links := ?_ }
    · dsimp only
      rw [List.pairwise_append]
      refine ⟨hI.psort, List.pairwise_singleton _ _, ?_⟩
      intro a ha b hb
      rw [List.mem_singleton] at hb
      have := hle' a ha
      have := hI.cnt
      omega
    · dsimp only
      rw [hgl 0 (by omega)]; exact hI.first
    · dsimp only; rw [hgn]
    · intro _; dsimp only; rw [hgn]
    · intro k hk
      dsimp only
      by_cases e : k = i
      · subst e
        refine ⟨s.num, hinvi, by omega, ?_, fun _ => ?_⟩
        · rw [hgl _ (le_refl _)]; exact hI.last
        · rw [hgn]; omega
      · rw [hinvset k (by omega)]
        obtain ⟨j, a1, a2, a3, a4⟩ := hI.inv k (by omega)
        refine ⟨j, a1, by omega, by rw [hgl j a2]; exact a3, fun _ => ?_⟩
        rcases Nat.lt_or_ge j s.num with h | h
        · rw [hgl _ (by omega)]; exact a4 h
        · have : j = s.num := by omega
          subst this
          rw [hgn]; omega
    · intro q hq h1 h2
      dsimp only at hq
      rcases List.mem_append.1 hq with h | h
      · exact hI.starts q h h1 h2
      · rw [List.mem_singleton, hI.cnt] at h
        subst h
        intro hl
        exact hb (hbt.2 ⟨h2, hc ▸ hl⟩)
    · intro q h1 h2 h3 h4
      dsimp only at h4
      rw [List.mem_append, List.mem_singleton, not_or, hI.cnt] at h4
      exact hI.links q h1 (by omega) h3 h4.1

/-- The grouping at the end of the loop. -/
theorem Inv.done {post : List Nat} {s : St} (h : Inv g post g.n s) (hT : PostOrder.Topo g post) :
    Chain.Done g ⟨s.num, s.ptr, post⟩ := by
  have hpl : post.length = g.n := by simpa using hT.perm.length_eq
  have hget : ∀ k, k < g.n → post[k]? = some (post.getD k 0) := fun k hk => getElem?_getD 0 (by omega)
  refine { plen := h.plen, psort := h.psort, first := h.first, last := h.full rfl, perm := hT.perm,
           starts := ?_, links := ?_ }
  · intro k hk y hy x hl
    dsimp only at hk hy
    have hkn : k < g.n := by have := (List.getElem?_eq_some_iff.1 hy).1; omega
    have hx : x ∈ post := hT.perm.mem_iff.2 (List.mem_range.2 hl.1.1)
    obtain ⟨a, ha⟩ := List.mem_iff_getElem?.1 hx
    have hka := hT.adj x y a k hl ha hy
    have hs := h.starts k hk (by omega) hkn
    rw [show k - 1 = a by omega] at hs
    rw [hget a (by omega), Option.some.injEq] at ha
    rw [hget k hkn, Option.some.injEq] at hy
    rw [ha, hy] at hs
    exact hs hl
  · intro k y hy hk
    dsimp only at hk hy
    have hkn : k < g.n := by have := (List.getElem?_eq_some_iff.1 hy).1; omega
    have hk0 : 0 < k := by
      rcases Nat.eq_zero_or_pos k with e | e
      · exfalso
        subst e
        apply hk
        have := h.first
        have hpl := h.plen
        rw [List.getD_eq_getElem?_getD, List.getElem?_eq_getElem (by omega)] at this
        simp only [Option.getD_some] at this
        have hm := List.getElem_mem (l := s.ptr) (n := 0) (by omega)
        rwa [this] at hm
      · exact e
    have hl := h.links k hk0 (by omega) hkn hk
    refine ⟨k - 1, _, by omega, hget (k - 1) (by omega), ?_⟩
    rw [hget k hkn, Option.some.injEq] at hy
    rw [← hy]; exact hl

theorem Inv.invOn {post : List Nat} {s : St} (h : Inv g post g.n s) (hT : PostOrder.Topo g post) :
    Group.InvOn ⟨s.num, s.ptr, post⟩ g.n (List.range s.num) s.inv := by
  refine ⟨h.ilen, ?_⟩
  rintro j - v ⟨hj, hm⟩
  have hpl : post.length = g.n := by simpa using hT.perm.length_eq
  have hP := (h.done hT).partition.1
  rw [Grouping.rows_eq, mem_slice] at hm
  obtain ⟨k, h1, h2, h3⟩ := hm
  dsimp only at hj h1 h2 h3
  have hkn : k < g.n := by have := (List.getElem?_eq_some_iff.1 h3).1; omega
  obtain ⟨j', a1, a2, a3, a4⟩ := h.inv k hkn
  rw [getElem?_getD 0 (by omega), Option.some.injEq] at h3
  rw [h3] at a1
  rw [a1]
  have hfull := h.full rfl
  have hj' : j' < s.num := by
    by_contra hc
    have : j' = s.num := by omega
    subst this
    omega
  exact hP.ptr.block_unique (k := k) hj' hj a3 (a4 hj') h1 h2

/-- The last node of group `j`. -/
def lastNode (post : List Nat) (s : St) (j : Nat) : Nat := post.getD (s.ptr.getD (j + 1) 0 - 1) 0

/-- The column of group `j` of the group graph. -/
def row (g : Csc) (post : List Nat) (s : St) (j : Nat) : List Nat :=
  (g.col (lastNode post s j)).map fun v => s.inv.getD v 0

theorem forEach_count {α β : Type} {f : α → Nat × List β → Res (Nat × List β)} {h : α → β} :
    ∀ (l : List α) (t : Nat) (acc : List β), (∀ v ∈ l, ∀ r, f v r = ok (r.1 + 1, r.2 ++ [h v])) →
    forEach l f (t, acc) = ok (t + l.length, acc ++ l.map h) := by
  intro l
  induction l with
  | nil => intro t acc _; simp [forEach]
  | cons a l ih =>
    intro t acc hf
    rw [forEach, hf a (by simp), ok_bind, ih _ _ fun v hv => hf v (by simp [hv])]
    simp only [List.length_cons, List.map_cons, List.append_assoc, List.singleton_append]
    rw [show t + 1 + l.length = t + (l.length + 1) by omega]

theorem groupGraph_wp (hwf : g.WF) {post : List Nat} {s : St} (h : Inv g post g.n s) (hT : PostOrder.Topo g post) :
    wp (groupGraph g.p g.i post s) (fun q => q.1.length = s.num + 1 ∧
      (∀ j, j ≤ s.num → q.1.getD j 0 = ((((List.range s.num).map (row g post s)).take j).flatten).length) ∧
      q.2 = ((List.range s.num).map (row g post s)).flatten) := by
  have hpl : post.length = g.n := by simpa using hT.perm.length_eq
  have hlt : ∀ k, k < g.n → post.getD k 0 < g.n := by
    intro k hk
    have : post.getD k 0 ∈ post := by
      rw [List.getD_eq_getElem?_getD, List.getElem?_eq_getElem (by omega)]
      exact List.getElem_mem _
    exact List.mem_range.1 (hT.perm.mem_iff.1 this)
  have hD := h.done hT
  have hP := hD.partition.1
  have hspl := h.plen
  unfold groupGraph
  refine wp_mono (forRange_wp' (fun k (q : List Nat × List Nat) => q.1.length = k + 1 ∧
      (∀ j, j ≤ k → q.1.getD j 0 = ((((List.range s.num).map (row g post s)).take j).flatten).length) ∧
      q.2 = (((List.range s.num).map (row g post s)).take k).flatten) (Nat.zero_le _) ?_ ?_ (fun _ h => h)) ?_
  · refine ⟨rfl, fun j hj => ?_, by simp⟩
    have : j = 0 := by omega
    subst this; rfl
  · rintro k q - hk ⟨h1, h2, h3⟩
    have hst := hD.strict (a := k) (b := k + 1) (by omega) hk
    have hle := hP.ptr.dle (b := k + 1) hk
    dsimp only at hst hle
    rw [rd_getD 0 (by omega), ok_bind]
    have hz : rdZ post ((s.ptr.getD (k + 1) 0 : Int) - 1) = ok (lastNode post s k) := by
      unfold rdZ
      rw [if_neg (by omega), show ((s.ptr.getD (k + 1) 0 : Int) - 1).toNat = s.ptr.getD (k + 1) 0 - 1 by omega,
        rd_getD 0 (by omega)]
      rfl
    have hln : lastNode post s k < g.n := hlt _ (by omega)
    have hbk : back q.1 = ok (q.1.getD k 0) := by
      unfold back
      rw [List.getLast?_eq_getElem?, h1, show k + 1 - 1 = k by omega, getElem?_getD 0 (by omega)]
    rw [hz, ok_bind, hbk, ok_bind, hwf.rd_p (by omega), ok_bind, hwf.rd_p (by omega), ok_bind]
    have hs2 := forRange_slice g.i (fun v (r : Nat × List Nat) => do
      let j ← rd s.inv v
      ok (r.1 + 1, r.2 ++ [j])) (q.1.getD k 0, q.2) (hwf.mono _ hln) (hwf.ptr_le (a := lastNode post s k + 1) hln)
    have hs3 : forRange (g.ptr (lastNode post s k)) (g.ptr (lastNode post s k + 1)) (fun c (r : Nat × List Nat) => do
      let v ← rd g.i c
      let j ← rd s.inv v
      ok (r.1 + 1, r.2 ++ [j])) (q.1.getD k 0, q.2) = _ := hs2.trans (forEach_count (h := fun v => s.inv.getD v 0) _ _ _ (by
      intro v hv r
      have := hwf.range _ hln v hv
      rw [rd_getD 0 (by rw [h.ilen]; exact this), ok_bind]))
    rw [hs3, ok_bind, wp_ok]
    have hrow : ((List.range s.num).map (row g post s)).getD k [] = row g post s k := by
      simp [List.getD_eq_getElem?_getD, hk]
    have hcol : (slice g.i (g.ptr (lastNode post s k)) (g.ptr (lastNode post s k + 1))).map
        (fun v => s.inv.getD v 0) = row g post s k := rfl
    have hfl := Group.flatten_take_succ ((List.range s.num).map (row g post s)) (k := k) (by simpa using hk)
    dsimp only
    refine ⟨by simp [h1], ?_, ?_⟩
    · intro j hj
      rcases Nat.lt_or_ge k j with hkj | hkj
      · have : j = k + 1 := by omega
        subst this
        rw [List.getD_eq_getElem?_getD, List.getElem?_append_right (by omega), h1, hfl, List.length_append, hrow,
          ← hcol, List.length_map, h2 k (le_refl _)]
        simp
      · rw [List.getD_eq_getElem?_getD, List.getElem?_append_left (by omega), ← List.getD_eq_getElem?_getD]
        exact h2 j hkj
    · rw [hfl, hrow, ← hcol, h3]
  · rintro q ⟨h1, h2, h3⟩
    refine ⟨h1, h2, ?_⟩
    rw [h3, List.take_of_length_le (by simp)]

section facts
variable {post : List Nat} {s : St}

/-- What is known of the result of the loops. -/
structure Facts (g : Csc) (post : List Nat) (s : St) : Prop where
  wf : g.WF
  df : g.DiagFirst
  nr : NoRep g
  topo : PostOrder.Topo g post
  inv : Inv g post g.n s

theorem Facts.pl (h : Facts g post s) : post.length = g.n := by simpa using h.topo.perm.length_eq

theorem Facts.get (h : Facts g post s) {k : Nat} (hk : k < g.n) : post[k]? = some (post.getD k 0) :=
  getElem?_getD 0 (by rw [h.pl]; exact hk)

theorem Facts.lt (h : Facts g post s) {k : Nat} (hk : k < g.n) : post.getD k 0 < g.n :=
  List.mem_range.1 (h.topo.perm.mem_iff.1 (List.mem_of_getElem? (h.get hk)))

theorem Facts.done (h : Facts g post s) : Chain.Done g ⟨s.num, s.ptr, post⟩ := h.inv.done h.topo

theorem Facts.part (h : Facts g post s) : (⟨s.num, s.ptr, post⟩ : Grouping).Partition g.n := h.done.partition.1

theorem Facts.bounds (h : Facts g post s) {j : Nat} (hj : j < s.num) :
    s.ptr.getD j 0 < s.ptr.getD (j + 1) 0 ∧ s.ptr.getD (j + 1) 0 ≤ g.n :=
  ⟨h.done.strict (a := j) (b := j + 1) (by omega) hj, h.part.ptr.dle (b := j + 1) hj⟩

/-- Membership in a group by position. -/
theorem Facts.mem_iff (h : Facts g post s) {v j : Nat} : (⟨s.num, s.ptr, post⟩ : Grouping).Mem v j ↔
    j < s.num ∧ ∃ k, s.ptr.getD j 0 ≤ k ∧ k < s.ptr.getD (j + 1) 0 ∧ post.getD k 0 = v := by
  unfold Grouping.Mem
  rw [Grouping.rows_eq, mem_slice]
  constructor
  · rintro ⟨hj, k, h1, h2, h3⟩
    refine ⟨hj, k, h1, h2, ?_⟩
    rw [List.getD_eq_getElem?_getD, h3]; rfl
  · rintro ⟨hj, k, h1, h2, h3⟩
    have := (h.bounds hj).2
    exact ⟨hj, k, h1, h2, by rw [h.get (by omega), h3]⟩

theorem Facts.inv_of_mem (h : Facts g post s) {v j : Nat} (hm : (⟨s.num, s.ptr, post⟩ : Grouping).Mem v j) :
    s.inv.getD v 0 = j := (h.inv.invOn h.topo).2 j (List.mem_range.2 hm.1) v hm

theorem Facts.mem_inv (h : Facts g post s) {v : Nat} (hv : v < g.n) :
    (⟨s.num, s.ptr, post⟩ : Grouping).Mem v (s.inv.getD v 0) := by
  obtain ⟨j, hj⟩ := h.part.exists hv
  rw [h.inv_of_mem hj]; exact hj

theorem Facts.last_mem (h : Facts g post s) {j : Nat} (hj : j < s.num) :
    (⟨s.num, s.ptr, post⟩ : Grouping).Mem (lastNode post s j) j := by
  have := h.bounds hj
  exact h.mem_iff.2 ⟨hj, _, by omega, by omega, rfl⟩

/-- A node of a group that is not its last one links to the next one. -/
theorem Facts.link (h : Facts g post s) {j k : Nat} (hj : j < s.num) (h1 : s.ptr.getD j 0 ≤ k)
    (h2 : k + 1 < s.ptr.getD (j + 1) 0) : g.Link (post.getD k 0) (post.getD (k + 1) 0) := by
  have := h.bounds hj
  exact h.done.link (j := j) hj h1 h2 (h.get (by omega)) (h.get (by omega))

theorem Facts.pos_lt (h : Facts g post s) {a b : Nat} (ha : a < g.n) (hb : b < g.n)
    (hd : g.Dep (post.getD a 0) (post.getD b 0)) : a < b := h.topo.topo _ _ a b hd (h.get ha) (h.get hb)

theorem Facts.kid_group (h : Facts g post s) {j v : Nat} (hj : j < s.num) (hv : v ∈ kids g (lastNode post s j)) :
    j < s.inv.getD v 0 ∧ s.inv.getD v 0 < s.num := by
  have hb := h.bounds hj
  have hln : lastNode post s j < g.n := h.lt (by omega)
  have hd := (dep_kids h.wf h.df h.nr hln).2 hv
  have hvn := (h.wf.dep_lt hd).2
  obtain ⟨hj', k, h1, h2, h3⟩ := h.mem_iff.1 (h.mem_inv hvn)
  have hb' := h.bounds hj'
  subst h3
  have := h.pos_lt (a := s.ptr.getD (j + 1) 0 - 1) (b := k) (by omega) (by omega) hd
  refine ⟨?_, hj'⟩
  by_contra hc
  have := h.part.ptr.dmono_le (a := s.inv.getD (post.getD k 0) 0 + 1) (b := j + 1) (by omega) (by show j + 1 ≤ s.num; omega)
  dsimp only at this
  omega

theorem Facts.row_eq (h : Facts g post s) {j : Nat} (hj : j < s.num) :
    row g post s j = j :: (kids g (lastNode post s j)).map (fun v => s.inv.getD v 0) := by
  have hb := h.bounds hj
  have hln : lastNode post s j < g.n := h.lt (by omega)
  unfold row
  rw [col_eq h.wf h.df hln, List.map_cons, h.inv_of_mem (h.last_mem hj)]

theorem Facts.row_nodup (h : Facts g post s) {j : Nat} (hj : j < s.num) : (row g post s j).Nodup := by
  have hb := h.bounds hj
  have hln : lastNode post s j < g.n := h.lt (by omega)
  rw [h.row_eq hj, List.nodup_cons]
  constructor
  · intro hm
    obtain ⟨v, hv, e⟩ := List.mem_map.1 hm
    have := (h.kid_group hj hv).1
    omega
  · refine List.Nodup.map_on ?_ (kids_nodup h.wf h.df h.nr hln).1
    have key : ∀ x y, x ∈ kids g (lastNode post s j) → y ∈ kids g (lastNode post s j) →
        ∀ a b, post.getD a 0 = x → post.getD b 0 = y → s.inv.getD x 0 < s.num →
        s.ptr.getD (s.inv.getD x 0) 0 ≤ a → b < s.ptr.getD (s.inv.getD x 0 + 1) 0 → ¬ a < b := by
      intro x y hx hy a b ha hb' hlt h1 h2 hab
      have hl := h.link hlt (k := b - 1) (by omega) (by omega)
      rw [show b - 1 + 1 = b by omega, hb'] at hl
      have e := hl.2.2 _ ((dep_kids h.wf h.df h.nr hln).2 hy)
      have hm1 : (⟨s.num, s.ptr, post⟩ : Grouping).Mem (post.getD (b - 1) 0) (s.inv.getD x 0) :=
        h.mem_iff.2 ⟨hlt, b - 1, by omega, by omega, rfl⟩
      rw [← e] at hm1
      have := h.part.unique hm1 (h.last_mem hj)
      have := (h.kid_group hj hx).1
      omega
    intro x hx y hy e
    have hxn := (h.wf.dep_lt ((dep_kids h.wf h.df h.nr hln).2 hx)).2
    have hyn := (h.wf.dep_lt ((dep_kids h.wf h.df h.nr hln).2 hy)).2
    obtain ⟨hj1, a, a1, a2, a3⟩ := h.mem_iff.1 (h.mem_inv hxn)
    obtain ⟨hj2, b, b1, b2, b3⟩ := h.mem_iff.1 (h.mem_inv hyn)
    have k1 := key x y hx hy a b a3 b3 hj1 a1 (by rw [e]; exact b2)
    have k2 := key y x hy hx b a b3 a3 hj2 b1 (by rw [← e]; exact a2)
    have : a = b := by omega
    rw [← a3, ← b3, this]

/-- The edges of the group graph are the dependences between groups. -/
theorem Facts.mem_row (h : Facts g post s) {a b : Nat} (ha : a < s.num) (hab : a ≠ b) :
    b ∈ row g post s a ↔ (⟨s.num, s.ptr, post⟩ : Grouping).Dep g a b := by
  have hb := h.bounds ha
  have hln : lastNode post s a < g.n := h.lt (by omega)
  rw [h.row_eq ha, List.mem_cons, List.mem_map]
  constructor
  · rintro (e | ⟨v, hv, rfl⟩)
    · exact absurd e.symm hab
    · have hd := (dep_kids h.wf h.df h.nr hln).2 hv
      exact ⟨hab, _, v, h.last_mem ha, h.mem_inv (h.wf.dep_lt hd).2, hd⟩
  · rintro ⟨-, u, v, hu, hv, hd⟩
    right
    obtain ⟨-, k, k1, k2, rfl⟩ := h.mem_iff.1 hu
    rcases Nat.lt_or_ge (k + 1) (s.ptr.getD (a + 1) 0) with hlt | hge
    · exfalso
      have hl := h.link ha k1 hlt
      have := hl.2.1 v hd
      have hm : (⟨s.num, s.ptr, post⟩ : Grouping).Mem v a := h.mem_iff.2 ⟨ha, k + 1, by omega, hlt, this.symm⟩
      exact hab (h.part.unique hm hv)
    · have hk : k = s.ptr.getD (a + 1) 0 - 1 := by omega
      subst hk
      exact ⟨v, (dep_kids h.wf h.df h.nr hln).1 hd, h.inv_of_mem hv⟩

/-! ### The assertions -/

theorem check_ok {debug b : Bool} (h : b = true) : check debug b = ok () := by
  unfold check
  rw [if_neg (by simp [h])]

theorem forRange_unit {lo hi : Nat} {f : Nat → Unit → Res Unit} (h : ∀ k, lo ≤ k → k < hi → f k () = ok ()) :
    forRange lo hi f () = ok () := by
  rcases Nat.lt_or_ge hi lo with hc | hc
  · exact forRange_empty _ _ (by omega)
  · have : wp (forRange lo hi f ()) fun _ => True := by
      refine forRange_wp' (fun _ _ => True) hc trivial ?_ (fun _ h => h)
      intro k s h1 h2 _
      rw [h k h1 h2, wp_ok]
      trivial
    obtain ⟨a, ha, -⟩ := wp_iff.1 this
    exact ha

theorem Facts.checkChains (h : Facts g post s) (debug : Bool) {deg : List Nat} (hdl : deg.length = g.n)
    (hd : ∀ v, v < g.n → deg.getD v 0 = (preds g g.n v).length) :
    checkChains debug g.p deg post s = ok () := by
  unfold PostGroup.checkChains
  split
  · have hspl := h.inv.plen
    have hpl := h.pl
    refine forRange_unit fun j _ hj => ?_
    have hb := h.bounds hj
    rw [rd_getD 0 (by omega), ok_bind, rd_getD 0 (by omega), ok_bind]
    rw [forRange_unit, ok_bind]
    · refine forRange_unit fun k h1 h2 => ?_
      rw [rd_getD 0 (by omega), ok_bind, rd_getD 0 (by rw [h.inv.ilen]; exact h.lt (by omega)), ok_bind]
      refine check_ok ?_
      rw [decide_eq_true_iff]
      exact h.inv_of_mem (h.mem_iff.2 ⟨hj, k, h1, h2, rfl⟩)
    · intro k h1 h2
      have hkn := h.lt (k := k) (by omega)
      have hkn' := h.lt (k := k + 1) (by omega)
      rw [rd_getD 0 (by omega), ok_bind, rd_getD 0 (by omega), ok_bind, h.wf.rd_p (by omega), ok_bind,
        h.wf.rd_p (by omega), ok_bind, rd_getD 0 (by omega), ok_bind]
      refine check_ok ?_
      rw [decide_eq_true_iff, hd _ hkn']
      obtain ⟨a1, a2⟩ := (link_iff h.wf h.df h.nr hkn).1 (h.link hj h1 (by omega))
      have hkl := kids_length h.wf hkn
      rw [a1, List.length_singleton] at hkl
      omega
  · rfl

theorem stdUnique_nodup : ∀ {l : List Nat}, l.Nodup → Group.stdUnique l = l
  | [], _ => rfl
  | [_], _ => rfl
  | a :: b :: l, h => by
    rw [Group.stdUnique, if_neg, stdUnique_nodup (List.nodup_cons.1 h).2]
    rintro rfl
    simp at h

theorem stdUnique_lead (a : Nat) (l : List Nat) : ∀ m, Group.stdUnique (List.replicate m a ++ a :: l)
    = Group.stdUnique (a :: l)
  | 0 => rfl
  | 1 => by
    show Group.stdUnique (a :: a :: l) = _
    rw [Group.stdUnique, if_pos rfl]
  | m + 2 => by
    rw [List.replicate_succ, List.replicate_succ, List.cons_append, List.cons_append, Group.stdUnique, if_pos rfl,
      ← List.cons_append, ← List.replicate_succ]
    exact stdUnique_lead a l (m + 1)

/-- The list of successor groups of all nodes of a group, repeated neighbours removed, is its column. -/
theorem Facts.succs (h : Facts g post s) {j : Nat} (hj : j < s.num) :
    Group.stdUnique ((groupRows s.ptr post j).flatMap fun u => (g.col u).map fun v => s.inv.getD v 0)
      = row g post s j := by
  have hb := h.bounds hj
  have hpl := h.pl
  have hrows : groupRows s.ptr post j
      = slice post (s.ptr.getD j 0) (s.ptr.getD (j + 1) 0 - 1) ++ [lastNode post s j] := by
    have e : groupRows s.ptr post j = slice post (s.ptr.getD j 0) (s.ptr.getD (j + 1) 0) :=
      Grouping.rows_eq ⟨s.num, s.ptr, post⟩ j
    have := slice_succ (l := post) (a := s.ptr.getD j 0) (b := s.ptr.getD (j + 1) 0 - 1) (by omega)
      (h.get (k := s.ptr.getD (j + 1) 0 - 1) (by omega))
    rw [show s.ptr.getD (j + 1) 0 - 1 + 1 = s.ptr.getD (j + 1) 0 by omega] at this
    rw [e, this]
    rfl
  rw [hrows, List.flatMap_append, List.flatMap_singleton]
  have hlead : ∀ l : List Nat, (∀ u ∈ l, (g.col u).map (fun v => s.inv.getD v 0) = [j, j]) →
      (l.flatMap fun u => (g.col u).map fun v => s.inv.getD v 0) = List.replicate (2 * l.length) j := by
    intro l
    induction l with
    | nil => intro _; rfl
    | cons a l ih =>
      intro hl
      rw [List.flatMap_cons, hl a (by simp), ih fun u hu => hl u (by simp [hu]), List.length_cons,
        show 2 * (l.length + 1) = 2 * l.length + 1 + 1 by omega, List.replicate_succ, List.replicate_succ]
      rfl
  rw [hlead]
  · show Group.stdUnique (_ ++ row g post s j) = _
    have hr := h.row_eq hj
    rw [hr, stdUnique_lead, ← hr, stdUnique_nodup (h.row_nodup hj)]
  · intro u hu
    rw [mem_slice] at hu
    obtain ⟨k, h1, h2, h3⟩ := hu
    have hku : post.getD k 0 = u := by rw [List.getD_eq_getElem?_getD, h3]; rfl
    have hkn := h.lt (k := k) (by omega)
    obtain ⟨a1, -⟩ := (link_iff h.wf h.df h.nr hkn).1 (h.link hj h1 (by omega))
    rw [← hku, col_eq h.wf h.df hkn, a1]
    simp only [List.map_cons, List.map_nil]
    rw [h.inv_of_mem (h.mem_iff.2 ⟨hj, k, h1, by omega, rfl⟩),
      h.inv_of_mem (h.mem_iff.2 ⟨hj, k + 1, by omega, by omega, rfl⟩)]

theorem Facts.checkGraph (h : Facts g post s) (debug : Bool) {q : List Nat × List Nat} (h1 : q.1.length = s.num + 1)
    (h2 : ∀ j, j ≤ s.num → q.1.getD j 0 = ((((List.range s.num).map (row g post s)).take j).flatten).length)
    (h3 : q.2 = ((List.range s.num).map (row g post s)).flatten) :
    checkGraph debug g.p g.i post s q = ok () := by
  unfold PostGroup.checkGraph
  split
  · refine forRange_unit fun j _ hj => ?_
    have hsu := Group.groupSuccs_eq h.wf h.part h.inv.ilen (j := j) hj
    dsimp only at hsu
    rw [hsu, ok_bind]
    dsimp only
    rw [h.succs hj, rd_getD 0 (by omega), ok_bind, h2 j (by omega)]
    refine forRange_unit fun i _ hi => ?_
    have hrow : ((List.range s.num).map (row g post s)).getD j [] = row g post s j := by
      simp [List.getD_eq_getElem?_getD, hj]
    have hsl := Group.slice_flatten ((List.range s.num).map (row g post s)) (k := j) (by simpa using hj)
    rw [hrow, Group.flatten_take_succ _ (by simpa using hj), hrow, List.length_append] at hsl
    have hi' : (row g post s j)[i]? = some ((row g post s j).getD i 0) := getElem?_getD 0 hi
    have hq : q.2[(((List.range s.num).map (row g post s)).take j).flatten.length + i]?
        = some ((row g post s j).getD i 0) := by
      rw [h3, ← hi']
      conv_rhs => rw [← hsl]
      rw [getElem?_slice, if_pos (by omega)]
    have hlt := (List.getElem?_eq_some_iff.1 hq).1
    rw [rd_getD 0 hlt, ok_bind, rd_getD 0 hi, ok_bind]
    refine check_ok ?_
    rw [decide_eq_true_iff, List.getD_eq_getElem?_getD, hq]
    rfl
  · rfl

end facts

end Verif.PostGroup
