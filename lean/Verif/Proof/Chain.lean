import Verif.Model.Chain
import Verif.Spec.Chain
import Verif.Spec.Reduce
import Verif.Proof.PostOrder
import Verif.Proof.TreeLoop
import Verif.Proof.Renumber

/-! # `chainGrouping` -/

namespace Verif.Chain
open Res
open Verif.Group

variable {g : Csc}

/-- The entries of column `u` after the diagonal. -/
def kids (g : Csc) (u : Nat) : List Nat := slice g.i (g.ptr u + 1) (g.ptr (u + 1))

theorem col_eq (hwf : g.WF) (hf : g.DiagFirst) {u : Nat} (hu : u < g.n) :
    g.col u = u :: kids g u := by
  have h1 := hwf.idx_first hf hu
  have hle := hwf.ptr_le (a := u + 1) (by omega)
  have hs : g.col u = slice g.i (g.ptr u) (g.ptr (u + 1)) := rfl
  rw [hs, ← slice_append (b := g.ptr u + 1) (by omega) (by omega), slice_one (by omega)]
  have : g.i[g.ptr u]'(by omega) = u := by
    have := h1.2
    rw [Csc.idx, List.getD_eq_getElem?_getD, List.getElem?_eq_getElem (by omega)] at this
    exact this
  rw [this]; rfl

theorem kids_sorted (hwf : g.WF) (hf : g.DiagFirst) (hs : g.Sorted) {u : Nat} (hu : u < g.n) :
    (kids g u).Pairwise (· < ·) ∧ ∀ v ∈ kids g u, u < v := by
  have := hs u hu
  rw [col_eq hwf hf hu, List.pairwise_cons] at this
  exact ⟨this.2, this.1⟩

theorem dep_kids (hwf : g.WF) (hf : g.DiagFirst) (hs : g.Sorted) {u v : Nat} (hu : u < g.n) :
    g.Dep u v ↔ v ∈ kids g u := by
  constructor
  · rintro ⟨_, h1, h2⟩
    rw [col_eq hwf hf hu] at h1
    rcases List.mem_cons.1 h1 with h | h
    · exact absurd h.symm h2
    · exact h
  · intro h
    have := (kids_sorted hwf hf hs hu).2 v h
    exact ⟨hu, by rw [col_eq hwf hf hu]; exact List.mem_cons_of_mem _ h, by omega⟩

theorem oneDiag (hwf : g.WF) (hf : g.DiagFirst) (hs : g.Sorted) : g.OneDiag := by
  intro u hu
  rw [col_eq hwf hf hu, List.count_cons_self]
  have : (kids g u).count u = 0 := by
    rw [List.count_eq_zero]
    intro h
    have := (kids_sorted hwf hf hs hu).2 u h
    omega
  omega

theorem dep_lt (hwf : g.WF) (hf : g.DiagFirst) (hs : g.Sorted) {u v : Nat} (h : g.Dep u v) :
    u < v := (kids_sorted hwf hf hs h.1).2 v ((dep_kids hwf hf hs h.1).1 h)

/-- The predecessors of `v`, in ascending order. -/
def preds (g : Csc) (k v : Nat) : List Nat := (List.range k).filter (fun u => v ∈ kids g u)

theorem mem_preds (hwf : g.WF) (hf : g.DiagFirst) (hs : g.Sorted) {u v : Nat} :
    u ∈ preds g g.n v ↔ g.Dep u v := by
  unfold preds
  rw [List.mem_filter, List.mem_range, decide_eq_true_eq]
  constructor
  · rintro ⟨h1, h2⟩; exact (dep_kids hwf hf hs h1).2 h2
  · intro h; exact ⟨h.1, (dep_kids hwf hf hs h.1).1 h⟩

theorem inDegree_count (hwf : g.WF) (hf : g.DiagFirst) (hs : g.Sorted) :
    wp (PostOrder.inDegree g.n g.p g.i) (fun deg => deg.length = g.n ∧
      ∀ v, v < g.n → deg.getD v 0 = (preds g g.n v).length) := by
  unfold PostOrder.inDegree
  refine forRange_wp' (fun k deg => deg.length = g.n ∧
      ∀ v, v < g.n → deg.getD v 0 = (preds g k v).length) (Nat.zero_le _) ?_ ?_ (fun _ h => h)
  · refine ⟨by simp, fun v hv => ?_⟩
    rw [getD_replicate _ _ _ _ hv]; simp [preds]
  · intro u deg _ hu ⟨hl, hd⟩
    rw [hwf.rd_p (by omega), hwf.rd_p (by omega)]
    simp only [ok_bind]
    have h1 := hwf.idx_first hf hu
    have hmn : g.ptr (u + 1) ≤ g.ptr g.n := hwf.mono_le (by omega) (le_refl _)
    have hb := hwf.bound
    refine forRange_wp' (fun j deg => deg.length = g.n ∧
      ∀ v, v < g.n → deg.getD v 0 = (preds g u v).length + (slice g.i (g.ptr u + 1) j).count v)
      (by omega) ?_ ?_ ?_
    · refine ⟨hl, fun v hv => ?_⟩
      rw [hd v hv, slice_self]; simp
    · intro j deg h2 h3 ⟨hl, hd⟩
      have hlt := hwf.idx_lt hu (j := j) (by omega) h3
      rw [hwf.rd_i (by omega)]
      simp only [ok_bind]
      rw [rd_getD 0 (by omega)]
      simp only [ok_bind]
      rw [wr_eq (by omega)]
      simp only [wp_ok]
      refine ⟨by simpa using hl, fun v hv => ?_⟩
      have hj : g.i[j]? = some (g.idx j) := by
        rw [Csc.idx, List.getD_eq_getElem?_getD, List.getElem?_eq_getElem (by omega)]; rfl
      rw [getD_set, slice_succ h2 hj, List.count_append]
      by_cases he : g.idx j = v
      · rw [if_pos ⟨he, by omega⟩, hd _ hlt, he, List.count_singleton_self]; omega
      · rw [if_neg (by tauto), hd v hv, List.count_singleton, if_neg (by simpa using he)]
        omega
    · intro deg ⟨hl, hd⟩
      refine ⟨hl, fun v hv => ?_⟩
      rw [hd v hv]
      show (preds g u v).length + (kids g u).count v = _
      have e : preds g (u + 1) v = preds g u v ++ if v ∈ kids g u then [u] else [] := by
        unfold preds
        rw [List.range_succ, List.filter_append]
        congr 1
        by_cases h : v ∈ kids g u <;> simp [h]
      rw [e, List.length_append]
      have hnd : (kids g u).Nodup :=
        (kids_sorted hwf hf hs hu).1.imp (fun h => Nat.ne_of_lt h)
      by_cases h : v ∈ kids g u
      · rw [if_pos h, List.count_eq_one_of_mem hnd h]; rfl
      · rw [if_neg h, List.count_eq_zero_of_not_mem h]; rfl

theorem leaves_sorted {deg : List Nat} {n : Nat} (hl : deg.length = n) :
    wp (PostOrder.leaves n deg) (fun lv => lv.Pairwise (· < ·) ∧
      ∀ v, v ∈ lv ↔ v < n ∧ deg.getD v 0 = 0) := by
  have h : PostOrder.leaves n deg = ok ((List.range n).filter (fun u => deg.getD u 0 = 0)) := by
    unfold PostOrder.leaves
    have := wp_iff.1 (forRange_wp' (lo := 0) (hi := n) (s := ([] : List Nat))
      (f := fun u acc => do
        let d ← rd deg u
        if d = 0 then ok (acc ++ [u]) else ok acc)
      (Q := fun r => r = (List.range n).filter (fun u => deg.getD u 0 = 0))
      (fun k acc => acc = (List.range k).filter (fun u => deg.getD u 0 = 0)) (Nat.zero_le _) rfl
      (by
        intro u acc _ hu he
        rw [rd_getD 0 (by omega), ok_bind, List.range_succ, List.filter_append, he]
        by_cases h0 : deg.getD u 0 = 0
        · rw [if_pos h0]; simp only [wp_ok]; congr 1; simp only [List.filter_cons, h0]; rfl
        · rw [if_neg h0]; simp only [wp_ok, List.filter_cons, h0]; simp) (fun _ h => h))
    obtain ⟨r, h1, h2⟩ := this
    rw [h1, h2]
  rw [h]
  simp only [wp_ok]
  refine ⟨List.Pairwise.filter _ List.pairwise_lt_range, fun v => ?_⟩
  rw [List.mem_filter, List.mem_range, decide_eq_true_eq]

/-! ### The invariant -/

/-- The nodes listed so far. -/
def listed (s : St) : List Nat := s.set.take s.cnt

structure Inv (g : Csc) (s : St) : Prop where
  vlen : s.visited.length = g.n
  slen : s.set.length = g.n
  cle : s.cnt ≤ g.n
  nodup : (listed s ++ s.stack ++ s.roots).Nodup
  lt : ∀ v, v ∈ listed s ∨ v ∈ s.stack ∨ v ∈ s.roots → v < g.n
  sorted : (s.roots ++ s.stack).Pairwise (· < ·)
  one : s.stack.length ≤ 1
  vis : ∀ v, v < g.n → s.visited.getD v false = true → v ∈ listed s ∨ v ∈ s.stack
  vis' : ∀ v ∈ listed s, s.visited.getD v false = true
  closed : ∀ u ∈ listed s, ∀ v, g.Dep u v → v ∈ listed s ∨ v ∈ s.stack ∨ v ∈ s.roots
  src : ∀ v, v < g.n → (∀ u, ¬ g.Dep u v) → v ∈ listed s ∨ v ∈ s.stack ∨ v ∈ s.roots
  orig : ∀ v, v ∈ listed s ∨ v ∈ s.stack ∨ v ∈ s.roots →
    (∃ u ∈ listed s, g.Dep u v) ∨ ∀ u, ¬ g.Dep u v
  noLink : ∀ r ∈ s.roots, ∀ x, ¬ g.Link x r
  psort : s.ptr.Pairwise (· < ·)
  phead : ∀ k ∈ s.ptr, k ≤ s.cnt
  plt : s.stack = [] → ∀ k ∈ s.ptr, k < s.cnt
  starts : ∀ k ∈ s.ptr, ∀ y, (listed s ++ s.stack)[k]? = some y → ∀ x, ¬ g.Link x y
  links : ∀ (k : Nat) y, (listed s ++ s.stack)[k]? = some y → k ∉ s.ptr →
    ∃ k' x, k = k' + 1 ∧ (listed s ++ s.stack)[k']? = some x ∧ g.Link x y
  finS : s.fin = true → s.stack = []
  num : s.ngroups = s.ptr.length

theorem Inv.len {s : St} (h : Inv g s) : (listed s).length = s.cnt := by
  unfold listed
  rw [List.length_take, h.slen]
  have := h.cle
  omega

theorem Inv.total {s : St} (h : Inv g s) :
    (listed s ++ s.stack ++ s.roots).length ≤ g.n := by
  have := (List.subperm_of_subset h.nodup (l₂ := List.range g.n) (fun v hv => by
    rw [List.mem_range]
    rw [List.mem_append, List.mem_append] at hv
    exact h.lt v (by tauto)))
  simpa using this.length_le

theorem set_take {l : List Nat} {c v : Nat} (h : c < l.length) :
    (l.set c v).take (c + 1) = l.take c ++ [v] := by
  rw [List.take_add_one, List.take_set_of_le (by omega)]
  simp [h]

theorem link_of (hwf : g.WF) (hf : g.DiagFirst) (hs : g.Sorted) {h c : Nat} (hh : h < g.n)
    (hk : kids g h = [c]) (hp : (preds g g.n c).length = 1) : g.Link h c := by
  have hd : g.Dep h c := (dep_kids hwf hf hs hh).2 (by rw [hk]; simp)
  refine ⟨hd, ?_, ?_⟩
  · intro w hw
    have := (dep_kids hwf hf hs hh).1 hw
    rw [hk] at this
    simpa using this
  · intro w hw
    obtain ⟨a, ha⟩ := List.length_eq_one_iff.1 hp
    have h1 := (mem_preds hwf hf hs).2 hw
    have h2 := (mem_preds hwf hf hs).2 hd
    rw [ha, List.mem_singleton] at h1 h2
    rw [h1, h2]

theorem link_kids (hwf : g.WF) (hf : g.DiagFirst) (hs : g.Sorted) {h c : Nat} (hl : g.Link h c) :
    kids g h = [c] ∧ (preds g g.n c).length = 1 := by
  have hh := hl.1.1
  constructor
  · have h1 := (dep_kids hwf hf hs hh).1 hl.1
    have h2 : ∀ x ∈ kids g h, x = c := fun x hx => hl.2.1 x ((dep_kids hwf hf hs hh).2 hx)
    have hnd : (kids g h).Nodup := (kids_sorted hwf hf hs hh).1.imp (fun h => Nat.ne_of_lt h)
    exact List.perm_singleton.1 ((List.perm_ext_iff_of_nodup hnd (List.nodup_singleton c)).2
      (fun a => by rw [List.mem_singleton]; exact ⟨h2 a, fun e => by rw [e]; exact h1⟩))
  · have h1 := (mem_preds hwf hf hs).2 hl.1
    have h2 : ∀ x ∈ preds g g.n c, x = h := fun x hx => hl.2.2 x ((mem_preds hwf hf hs).1 hx)
    have hnd : (preds g g.n c).Nodup := List.Nodup.filter _ List.nodup_range
    rw [List.perm_singleton.1 ((List.perm_ext_iff_of_nodup hnd (List.nodup_singleton h)).2
      (fun a => by rw [List.mem_singleton]; exact ⟨h2 a, fun e => by rw [e]; exact h1⟩))]
    rfl

/-- What `branch` does. -/
theorem branch_wp (hwf : g.WF) (hf : g.DiagFirst) (hs : g.Sorted) {debug : Bool} {deg : List Nat}
    (hdl : deg.length = g.n) (hd : ∀ v, v < g.n → deg.getD v 0 = (preds g g.n v).length)
    {h : Nat} (hh : h < g.n) {s : St} (hvl : s.visited.length = g.n)
    (hv : ∀ c, g.Link h c → s.visited.getD c false = false) (hst : s.stack = []) :
    wp (branch debug g.p g.i deg h s) fun s' =>
      (∃ c, g.Link h c ∧ s' = { s with stack := [c] }) ∨
      ((∀ c, ¬ g.Link h c) ∧ s' = { s with
        roots := s.roots ++ (kids g h).filter (fun c => s.visited.getD c false = false),
        fin := true }) := by
  unfold branch
  have h1 := hwf.idx_first hf hh
  have hmn : g.ptr (h + 1) ≤ g.ptr g.n := hwf.mono_le (by omega) (le_refl _)
  have hb := hwf.bound
  have hkl : (kids g h).length = g.ptr (h + 1) - (g.ptr h + 1) := slice_length (by omega)
  rw [hwf.rd_p (by omega), ok_bind, hwf.rd_p (by omega), ok_bind]
  have hkn : ∀ c ∈ kids g h, c < g.n := fun c hc =>
    (hwf.dep_lt ((dep_kids hwf hf hs hh).2 hc)).2
  split
  · next h2 =>
    have hlt := hwf.idx_lt hh (j := g.ptr h + 1) (by omega) (by omega)
    have hk : kids g h = [g.idx (g.ptr h + 1)] := by
      unfold kids
      rw [h2, slice_one (by omega), Csc.idx, List.getD_eq_getElem?_getD,
        List.getElem?_eq_getElem (by omega)]
      rfl
    rw [hwf.rd_i (by omega), ok_bind, rd_getD 0 (by omega), ok_bind, hd _ hlt]
    obtain ⟨c, hc⟩ : ∃ c, c = g.idx (g.ptr h + 1) := ⟨_, rfl⟩
    rw [← hc] at hlt hk ⊢
    have hdep : g.Dep h c := (dep_kids hwf hf hs hh).2 (by rw [hk]; simp)
    have hpos : 0 < (preds g g.n c).length :=
      List.length_pos_of_mem ((mem_preds hwf hf hs).2 hdep)
    rw [rd_getD false (by omega), ok_bind]
    split
    · next h3 =>
      have hl := link_of hwf hf hs hh hk h3
      rw [hv c hl, if_neg (by simp), wp_ok]
      exact .inl ⟨c, hl, by rw [hst]; rfl⟩
    · next h3 =>
      rw [if_pos (by omega), ok_bind]
      have hno : ∀ c, ¬ g.Link h c := by
        intro c' hl
        obtain ⟨h4, h5⟩ := link_kids hwf hf hs hl
        rw [hk] at h4
        simp only [List.cons.injEq, and_true] at h4
        rw [h4] at h3; exact h3 h5
      split
      · next h4 =>
        rw [wp_ok]
        refine .inr ⟨hno, ?_⟩
        rw [hk, List.filter_cons, if_neg (by rw [h4]; decide)]; simp
      · next h4 =>
        rw [wp_ok]
        refine .inr ⟨hno, ?_⟩
        rw [Bool.not_eq_true] at h4
        rw [hk, List.filter_cons, if_pos (by rw [h4]; decide)]; rfl
  · next h2 =>
    have hno : ∀ c, ¬ g.Link h c := by
      intro c' hl
      obtain ⟨h4, h5⟩ := link_kids hwf hf hs hl
      rw [h4] at hkl
      simp only [List.length_singleton] at hkl
      omega
    have hfr : forRange (g.ptr h + 1) (g.ptr (h + 1)) (fun i roots => do
        let child ← rd g.i i
        let v ← rd s.visited child
        if v = true then ok roots else ok (roots ++ [child])) s.roots
        = ok (s.roots ++ (kids g h).filter (fun c => s.visited.getD c false = false)) := by
      refine (forRange_slice g.i (fun child roots => do
        let v ← rd s.visited child
        if v = true then ok roots else ok (roots ++ [child])) s.roots (by omega) (by omega)).trans ?_
      have e : (kids g h).filter (fun c => s.visited.getD c false = false) =
          (kids g h).flatMap (fun c => if s.visited.getD c false = true then [] else [c]) := by
        induction kids g h with
        | nil => rfl
        | cons a l ih =>
          rw [List.filter_cons, List.flatMap_cons, ih]
          by_cases ha : s.visited.getD a false = true
          · rw [if_pos ha, if_neg (by rw [ha]; decide)]; rfl
          · rw [if_neg ha, if_pos (by simpa using ha)]; rfl
      rw [e]
      refine forEach_push _ _ _ ?_
      intro c hc acc
      have := hkn c hc
      rw [rd_getD false (by omega), ok_bind]
      split
      · simp
      · rfl
    rw [hfr, ok_bind, wp_ok]
    exact .inr ⟨hno, rfl⟩

/-- The invariant after a node was listed. -/
theorem Inv.next {s s2 : St} (h : Inv g s) {a : Nat} (hst : s.stack = [a])
    (hwf : g.WF) (hf : g.DiagFirst) (hs : g.Sorted)
    (hset : s2.set = s.set.set s.cnt a) (hcnt : s2.cnt = s.cnt + 1)
    (hvis : s2.visited = s.visited.set a true) (hptr : s2.ptr = s.ptr)
    (hnum : s2.ngroups = s.ngroups) (hfin : s.fin = false)
    (hbr : (∃ c, g.Link a c ∧ s2.stack = [c] ∧ s2.roots = s.roots ∧ s2.fin = s.fin) ∨
      ((∀ c, ¬ g.Link a c) ∧ s2.stack = [] ∧ s2.roots = s.roots ++
        (kids g a).filter (fun c => (s.visited.set a true).getD c false = false))) :
    Inv g s2 := by
  have hlen := h.len
  have htot := h.total
  have han : a < g.n := h.lt a (.inr (.inl (by rw [hst]; simp)))
  rw [hst, List.length_append, List.length_append, List.length_singleton, hlen] at htot
  have hE : listed s2 = listed s ++ [a] := by
    unfold listed
    rw [hset, hcnt, set_take (by rw [h.slen]; omega)]
  have hnd := h.nodup
  rw [hst] at hnd
  have hnd2 : (listed s2 ++ s.roots).Nodup := by rw [hE]; exact hnd
  have haE : a ∉ listed s := by
    intro hc
    have := (List.nodup_append.1 (List.nodup_append.1 hnd).1).2.2 a hc a (by simp)
    exact this rfl
  have hsort := h.sorted
  rw [hst, List.pairwise_append] at hsort
  have hlt2 : ∀ r ∈ s.roots, r < a := fun r hr => hsort.2.2 r hr a (by simp)
  have hk := kids_sorted hwf hf hs han
  have hvis2 : ∀ v, s2.visited.getD v false = true ↔
      (v = a ∨ s.visited.getD v false = true) := by
    intro v
    rw [hvis, getD_set]
    by_cases hva : a = v
    · subst hva; simp [h.vlen, han]
    · rw [if_neg (fun h => hva h.1)]
      constructor
      · exact .inr
      · rintro (h | h)
        · exact absurd h.symm hva
        · exact h
  have hvisE : ∀ v, v < g.n → s2.visited.getD v false = true → v ∈ listed s2 := by
    intro v hv h2
    rw [hE, List.mem_append, List.mem_singleton]
    rcases (hvis2 v).1 h2 with h3 | h3
    · exact .inr h3
    · rcases h.vis v hv h3 with h4 | h4
      · exact .inl h4
      · rw [hst, List.mem_singleton] at h4; exact .inr h4
  have hvisE' : ∀ v ∈ listed s2, s2.visited.getD v false = true := by
    intro v hv
    rw [hE, List.mem_append, List.mem_singleton] at hv
    rw [hvis2]
    rcases hv with hv | hv
    · exact .inr (h.vis' v hv)
    · exact .inl hv
  have hidx : ∀ (k : Nat) y, (listed s2)[k]? = some y ↔ (listed s ++ s.stack)[k]? = some y := by
    intro k y; rw [hE, hst]
  -- the nodes on the lists
  have hall : ∀ v, v ∈ listed s ∨ v ∈ s.stack ∨ v ∈ s.roots ↔ v ∈ listed s2 ∨ v ∈ s.roots := by
    intro v
    rw [hE, hst, List.mem_append]
    tauto
  have hlen2 : (listed s2).length = s.cnt + 1 := by rw [hE, List.length_append, hlen]; rfl
  rcases hbr with ⟨c, hl, hst2, hroots, hfin2⟩ | ⟨hno, hst2, hroots⟩
  · have hac := dep_lt hwf hf hs hl.1
    have hcn := (hwf.dep_lt hl.1).2
    have hcE : c ∉ listed s2 := by
      intro hc
      rw [hE, List.mem_append, List.mem_singleton] at hc
      rcases hc with hc | hc
      · rcases h.orig c (.inl hc) with ⟨u, hu, hd⟩ | hd
        · have := hl.2.2 u hd; subst this; exact haE hu
        · exact hd a hl.1
      · omega
    have hcR : c ∉ s.roots := fun hc => by have := hlt2 c hc; omega
    have hall2 : ∀ v, v ∈ listed s2 ∨ v ∈ s2.stack ∨ v ∈ s2.roots ↔
        (v ∈ listed s2 ∨ v ∈ s.roots) ∨ v = c := by
      intro v; rw [hst2, hroots, List.mem_singleton]; tauto
    refine ⟨by rw [hvis]; simpa using h.vlen, by rw [hset]; simpa using h.slen, by omega, ?_, ?_, ?_,
      by rw [hst2]; simp, ?_, hvisE', ?_, ?_, ?_, by rw [hroots]; exact h.noLink,
      by rw [hptr]; exact h.psort, ?_, ?_, ?_, ?_, ?_, by rw [hnum, hptr]; exact h.num⟩
    · rw [hst2, hroots]
      rw [List.nodup_append] at hnd2 ⊢
      refine ⟨?_, hnd2.2.1, ?_⟩
      · rw [List.nodup_append]
        refine ⟨hnd2.1, List.nodup_singleton _, ?_⟩
        intro x hx y hy
        rw [List.mem_singleton] at hy
        rintro rfl
        exact hcE (hy ▸ hx)
      · intro x hx y hy
        rw [List.mem_append, List.mem_singleton] at hx
        rcases hx with hx | hx
        · exact hnd2.2.2 x hx y hy
        · rintro rfl; exact hcR (hx ▸ hy)
    · intro v hv
      rcases (hall2 v).1 hv with h3 | h3
      · exact h.lt v ((hall v).2 h3)
      · omega
    · rw [hst2, hroots, List.pairwise_append]
      refine ⟨hsort.1, by simp, ?_⟩
      intro x hx y hy
      rw [List.mem_singleton] at hy
      have := hlt2 x hx
      omega
    · intro v hv h2; exact .inl (hvisE v hv h2)
    · intro u hu v hd
      rw [hall2]
      rw [hE, List.mem_append, List.mem_singleton] at hu
      rcases hu with hu | hu
      · exact .inl ((hall v).1 (h.closed u hu v hd))
      · subst hu; exact .inr (hl.2.1 v hd)
    · intro v hv hn
      rw [hall2]
      exact .inl ((hall v).1 (h.src v hv hn))
    · intro v hv
      rcases (hall2 v).1 hv with h3 | h3
      · rcases h.orig v ((hall v).2 h3) with ⟨u, hu, hd⟩ | hd
        · exact .inl ⟨u, by rw [hE]; exact List.mem_append_left _ hu, hd⟩
        · exact .inr hd
      · subst h3
        exact .inl ⟨a, by rw [hE]; simp, hl.1⟩
    · intro k hk; rw [hptr] at hk; have := h.phead k hk; omega
    · intro hc; rw [hst2] at hc; cases hc
    · intro k hk y hy
      rw [hptr] at hk
      have := h.phead k hk
      rw [List.getElem?_append_left (by omega)] at hy
      exact h.starts k hk y ((hidx k y).1 hy)
    · intro k y hy hk
      rw [hptr] at hk
      by_cases hk2 : k < s.cnt + 1
      · rw [List.getElem?_append_left (by omega)] at hy
        obtain ⟨k', x, h3, h4, h5⟩ := h.links k y ((hidx k y).1 hy) hk
        exact ⟨k', x, h3, by rw [List.getElem?_append_left (by omega)]; exact (hidx k' x).2 h4, h5⟩
      · rw [List.getElem?_append_right (by omega), hst2] at hy
        have hk3 : k = s.cnt + 1 := by
          by_contra hc
          rw [List.getElem?_eq_none (by simp only [List.length_singleton]; omega)] at hy
          cases hy
        rw [hk3, hlen2, Nat.sub_self] at hy
        simp only [List.getElem?_cons_zero, Option.some.injEq] at hy
        subst hy
        refine ⟨s.cnt, a, hk3, ?_, hl⟩
        rw [List.getElem?_append_left (by omega), hE, List.getElem?_append_right (by omega), hlen,
          Nat.sub_self]
        rfl
    · rw [hfin2, hfin]; intro hc; cases hc
  · obtain ⟨F, hF⟩ : ∃ F, F = (kids g a).filter
      (fun c => (s.visited.set a true).getD c false = false) := ⟨_, rfl⟩
    rw [← hF] at hroots
    have hFm : ∀ c, c ∈ F ↔ g.Dep a c ∧ c ∉ listed s2 := by
      intro c
      rw [hF, List.mem_filter, decide_eq_true_eq, ← hvis, dep_kids hwf hf hs han]
      constructor
      · rintro ⟨h1, h2⟩
        refine ⟨h1, fun hc => ?_⟩
        rw [hvisE' c hc] at h2; cases h2
      · rintro ⟨h1, h2⟩
        refine ⟨h1, ?_⟩
        by_contra hc
        rw [Bool.not_eq_false] at hc
        exact h2 (hvisE c (hwf.dep_lt ((dep_kids hwf hf hs han).2 h1)).2 hc)
    have hFs : F.Pairwise (· < ·) := by rw [hF]; exact hk.1.filter _
    have hFa : ∀ c ∈ F, a < c := fun c hc => dep_lt hwf hf hs ((hFm c).1 hc).1
    have hall2 : ∀ v, v ∈ listed s2 ∨ v ∈ s2.stack ∨ v ∈ s2.roots ↔
        (v ∈ listed s2 ∨ v ∈ s.roots) ∨ v ∈ F := by
      intro v; rw [hst2, hroots, List.mem_append]; simp only [List.not_mem_nil, false_or]; tauto
    have hRs : (s.roots ++ F).Pairwise (· < ·) := by
      rw [List.pairwise_append]
      refine ⟨hsort.1, hFs, ?_⟩
      intro x hx y hy
      have := hlt2 x hx
      have := hFa y hy
      omega
    refine ⟨by rw [hvis]; simpa using h.vlen, by rw [hset]; simpa using h.slen, by omega, ?_, ?_, ?_,
      by rw [hst2]; simp, ?_, hvisE', ?_, ?_, ?_, ?_,
      by rw [hptr]; exact h.psort, ?_, ?_, ?_, ?_, fun _ => hst2, by rw [hnum, hptr]; exact h.num⟩
    · rw [hst2, hroots, List.append_nil]
      rw [List.nodup_append] at hnd2 ⊢
      refine ⟨hnd2.1, hRs.imp (fun h => Nat.ne_of_lt h), ?_⟩
      intro x hx y hy
      rw [List.mem_append] at hy
      rcases hy with hy | hy
      · exact hnd2.2.2 x hx y hy
      · rintro rfl; exact ((hFm x).1 hy).2 hx
    · intro v hv
      rcases (hall2 v).1 hv with h3 | h3
      · exact h.lt v ((hall v).2 h3)
      · exact (hwf.dep_lt ((hFm v).1 h3).1).2
    · rw [hst2, hroots, List.append_nil]; exact hRs
    · intro v hv h2; exact .inl (hvisE v hv h2)
    · intro u hu v hd
      rw [hall2]
      rw [hE, List.mem_append, List.mem_singleton] at hu
      rcases hu with hu | hu
      · exact .inl ((hall v).1 (h.closed u hu v hd))
      · subst hu
        by_cases hv : v ∈ listed s2
        · exact .inl (.inl hv)
        · exact .inr ((hFm v).2 ⟨hd, hv⟩)
    · intro v hv hn
      rw [hall2]
      exact .inl ((hall v).1 (h.src v hv hn))
    · intro v hv
      rcases (hall2 v).1 hv with h3 | h3
      · rcases h.orig v ((hall v).2 h3) with ⟨u, hu, hd⟩ | hd
        · exact .inl ⟨u, by rw [hE]; exact List.mem_append_left _ hu, hd⟩
        · exact .inr hd
      · exact .inl ⟨a, by rw [hE]; simp, ((hFm v).1 h3).1⟩
    · intro r hr x hl
      rw [hroots, List.mem_append] at hr
      rcases hr with hr | hr
      · exact h.noLink r hr x hl
      · have := hl.2.2 a ((hFm r).1 hr).1
        subst this
        exact hno r hl
    · intro k hk; rw [hptr] at hk; have := h.phead k hk; omega
    · intro _ k hk; rw [hptr] at hk; have := h.phead k hk; omega
    · intro k hk y hy
      rw [hptr] at hk
      rw [hst2, List.append_nil] at hy
      exact h.starts k hk y ((hidx k y).1 hy)
    · intro k y hy hk
      rw [hptr] at hk
      rw [hst2, List.append_nil] at hy ⊢
      obtain ⟨k', x, h3, h4, h5⟩ := h.links k y ((hidx k y).1 hy) hk
      exact ⟨k', x, h3, (hidx k' x).2 h4, h5⟩

theorem chainStep_wp (hwf : g.WF) (hf : g.DiagFirst) (hs : g.Sorted) {debug : Bool} {deg : List Nat}
    (hdl : deg.length = g.n) (hd : ∀ v, v < g.n → deg.getD v 0 = (preds g g.n v).length)
    {s : St} (h : Inv g s) (hne : s.stack ≠ []) :
    wp (chainStep debug g.p g.i deg s) fun s' => Inv g s' ∧ s'.cnt = s.cnt + 1 ∧ s.cnt < g.n := by
  obtain ⟨a, hst⟩ : ∃ a, s.stack = [a] := by
    apply List.length_eq_one_iff.1
    have := h.one
    have := List.length_pos_of_ne_nil hne
    omega
  have han : a < g.n := h.lt a (.inr (.inl (by rw [hst]; simp)))
  have htot := h.total
  rw [hst, List.length_append, List.length_append, List.length_singleton, h.len] at htot
  have hfin : s.fin = false := by
    by_contra hc
    rw [Bool.not_eq_false] at hc
    exact hne (h.finS hc)
  have hnd := h.nodup
  rw [hst] at hnd
  have haE : a ∉ listed s := by
    intro hc
    have := (List.nodup_append.1 (List.nodup_append.1 hnd).1).2.2 a hc a (by simp)
    exact this rfl
  unfold chainStep
  have hb : back s.stack = ok a := by rw [hst]; rfl
  rw [hb, ok_bind, wr_eq (by rw [h.vlen]; exact han), ok_bind, wp_bind]
  have hdl' : s.stack.dropLast = [] := by rw [hst]; rfl
  have hv : ∀ c, g.Link a c → (s.visited.set a true).getD c false = false := by
    intro c hl
    have hac := dep_lt hwf hf hs hl.1
    rw [getD_set, if_neg (by omega)]
    by_contra hc
    rw [Bool.not_eq_false] at hc
    rcases h.vis c (hwf.dep_lt hl.1).2 hc with h1 | h1
    · rcases h.orig c (.inl h1) with ⟨u, hu, hd⟩ | hd
      · have := hl.2.2 u hd; subst this; exact haE hu
      · exact hd a hl.1
    · rw [hst, List.mem_singleton] at h1; omega
  refine wp_mono (branch_wp hwf hf hs hdl hd han (by simpa using h.vlen) hv hdl') ?_
  rintro s1 (⟨c, hl, rfl⟩ | ⟨hno, rfl⟩)
  · dsimp only
    rw [wr_eq (by rw [h.slen]; omega), ok_bind, if_neg (by rw [hfin]; simp), wp_ok]
    exact ⟨Inv.next h hst hwf hf hs rfl rfl rfl rfl rfl hfin (.inl ⟨c, hl, rfl, rfl, rfl⟩), rfl,
      by omega⟩
  · dsimp only
    rw [wr_eq (by rw [h.slen]; omega), ok_bind, hdl', if_neg (by simp), wp_ok]
    exact ⟨Inv.next h hst hwf hf hs rfl rfl rfl rfl rfl hfin (.inr ⟨hno, rfl, rfl⟩), rfl,
      by omega⟩

/-- The invariant when the last root is moved to the stack. -/
theorem Inv.start {s s2 : St} (h : Inv g s) (hst : s.stack = []) {a : Nat} {l : List Nat}
    (hr : s.roots = l ++ [a]) (hs2 : s2 = { s with
      roots := l, visited := s.visited.set a true, stack := [a], ptr := s.ptr ++ [s.cnt],
      ngroups := s.ngroups + 1, fin := false }) : Inv g s2 := by
  have hE : listed s2 = listed s := by rw [hs2]; rfl
  have e1 : s2.roots = l := by rw [hs2]
  have e2 : s2.stack = [a] := by rw [hs2]
  have e3 : s2.visited = s.visited.set a true := by rw [hs2]
  have e4 : s2.ptr = s.ptr ++ [s.cnt] := by rw [hs2]
  have e5 : s2.cnt = s.cnt := by rw [hs2]
  have hlen := h.len
  have hall : ∀ v, v ∈ listed s2 ∨ v ∈ s2.stack ∨ v ∈ s2.roots ↔
      v ∈ listed s ∨ v ∈ s.stack ∨ v ∈ s.roots := by
    intro v
    rw [hE, e1, e2, hst, hr, List.mem_append]
    simp only [List.not_mem_nil, false_or]
    tauto
  have hlt := h.plt hst
  refine ⟨by rw [e3]; simpa using h.vlen, by rw [hs2]; exact h.slen, by rw [e5]; exact h.cle, ?_,
    fun v hv => h.lt v ((hall v).1 hv), ?_, by rw [e2]; simp, ?_, ?_, ?_, ?_, ?_, ?_, ?_, ?_, ?_, ?_,
    ?_, (by rw [hs2]; intro hc; cases hc), (by
      rw [e4, hs2, List.length_append, List.length_singleton, ← h.num])⟩
  · have := h.nodup
    rw [hst, hr, List.append_nil] at this
    rw [hE, e1, e2, List.append_assoc]
    refine (List.Perm.nodup_iff ?_).1 this
    exact List.Perm.append_left _ List.perm_append_comm
  · have := h.sorted
    rw [hst, hr, List.append_nil] at this
    rw [e1, e2]; exact this
  · intro v hv h2
    rw [e3, getD_set] at h2
    rw [e2, List.mem_singleton, hE]
    by_cases hva : a = v
    · exact .inr hva.symm
    · rw [if_neg (fun h => hva h.1)] at h2
      rcases h.vis v hv h2 with h3 | h3
      · exact .inl h3
      · rw [hst] at h3; cases h3
  · intro v hv
    rw [hE] at hv
    rw [e3, getD_set]
    split
    · rfl
    · exact h.vis' v hv
  · intro u hu v hd
    rw [hall]
    rw [hE] at hu
    exact h.closed u hu v hd
  · intro v hv hn
    rw [hall]
    exact h.src v hv hn
  · intro v hv
    rw [hE]
    exact h.orig v ((hall v).1 hv)
  · intro r hr'
    rw [e1] at hr'
    exact h.noLink r (by rw [hr]; exact List.mem_append_left _ hr')
  · rw [e4, List.pairwise_append]
    refine ⟨h.psort, by simp, ?_⟩
    intro x hx y hy
    rw [List.mem_singleton] at hy
    have := hlt x hx
    omega
  · intro k hk
    rw [e4, List.mem_append, List.mem_singleton] at hk
    rw [e5]
    rcases hk with hk | hk
    · exact h.phead k hk
    · omega
  · intro hc; rw [e2] at hc; cases hc
  · intro k hk y hy
    rw [e4, List.mem_append, List.mem_singleton] at hk
    rw [hE, e2] at hy
    rcases hk with hk | hk
    · have := hlt k hk
      rw [List.getElem?_append_left (by omega)] at hy
      exact h.starts k hk y (by rw [hst, List.append_nil]; exact hy)
    · rw [hk, List.getElem?_append_right (by omega), hlen, Nat.sub_self] at hy
      simp only [List.getElem?_cons_zero, Option.some.injEq] at hy
      subst hy
      exact h.noLink a (by rw [hr]; simp)
  · intro k y hy hk
    rw [e4, List.mem_append, List.mem_singleton] at hk
    rw [hE, e2] at hy ⊢
    have hkc : k < s.cnt := by
      by_contra hc
      rw [List.getElem?_eq_none (by
        rw [List.length_append, hlen, List.length_singleton]; omega)] at hy
      cases hy
    rw [List.getElem?_append_left (by omega)] at hy
    obtain ⟨k', x, h3, h4, h5⟩ := h.links k y (by rw [hst, List.append_nil]; exact hy)
      (fun h => hk (.inl h))
    refine ⟨k', x, h3, ?_, h5⟩
    rw [hst, List.append_nil] at h4
    rw [List.getElem?_append_left (by omega)]
    exact h4

theorem chainRound_wp (hwf : g.WF) (hf : g.DiagFirst) (hs : g.Sorted) {debug : Bool}
    {deg : List Nat}
    (hdl : deg.length = g.n) (hd : ∀ v, v < g.n → deg.getD v 0 = (preds g g.n v).length)
    {s : St} (h : Inv g s) (hst : s.stack = []) (hne : s.roots ≠ []) :
    wp (chainRound debug g.n g.p g.i deg s) fun s' =>
      Inv g s' ∧ s'.stack = [] ∧ s.cnt < s'.cnt := by
  obtain ⟨l, a, hr⟩ : ∃ l a, s.roots = l ++ [a] := by
    rcases List.eq_nil_or_concat s.roots with h | ⟨l, a, h⟩
    · exact absurd h hne
    · exact ⟨l, a, by rw [h, List.concat_eq_append]⟩
  have han : a < g.n := h.lt a (.inr (.inr (by rw [hr]; simp)))
  unfold chainRound
  have hb : back s.roots = ok a := by unfold back; rw [hr]; simp
  rw [hb, ok_bind, wr_eq (by rw [h.vlen]; exact han), ok_bind]
  have hdl' : s.roots.dropLast = l := by rw [hr]; simp
  rw [hdl', hst, List.nil_append]
  obtain ⟨s2, hs2⟩ : ∃ s2 : St, s2 = { s with
      roots := l, visited := s.visited.set a true, stack := [a], ptr := s.ptr ++ [s.cnt],
      ngroups := s.ngroups + 1, fin := false } := ⟨_, rfl⟩
  have hI := Inv.start h hst hr hs2
  have hc2 : s2.cnt = s.cnt := by rw [hs2]
  have hst2 : s2.stack = [a] := by rw [hs2]
  rw [← hs2]
  refine whileF_wp (fun t => Inv g t ∧ s.cnt ≤ t.cnt ∧ (t.stack = [] → s.cnt < t.cnt))
    (fun t => g.n - t.cnt) ?_ _ _ (by omega)
    ⟨hI, by omega, by rw [hst2]; intro hc; cases hc⟩
  rintro t ⟨hI, h1, h2⟩
  rw [wp_ok]
  by_cases ht : t.stack = []
  · rw [show (!t.stack.isEmpty) = false by simp [ht], if_neg (by decide)]
    exact ⟨hI, ht, h2 ht⟩
  · have : (!t.stack.isEmpty) = true := by simp [ht]
    rw [this, if_pos rfl]
    have hw := chainStep_wp (debug := debug) hwf hf hs hdl hd hI ht
    obtain ⟨_, _, _, _, hlt⟩ := wp_iff.1 hw
    refine ⟨by omega, wp_mono hw ?_⟩
    rintro t' ⟨h3, h4, _⟩
    exact ⟨⟨h3, by omega, fun _ => by omega⟩, by omega⟩

/-- What the traversal returns. -/
structure Done (g : Csc) (G : Grouping) : Prop where
  plen : G.ptr.length = G.num + 1
  psort : G.ptr.Pairwise (· < ·)
  first : G.ptr.getD 0 0 = 0
  last : G.ptr.getD G.num 0 = g.n
  perm : G.set.Perm (List.range g.n)
  starts : ∀ k ∈ G.ptr, ∀ y, G.set[k]? = some y → ∀ x, ¬ g.Link x y
  links : ∀ (k : Nat) y, G.set[k]? = some y → k ∉ G.ptr →
    ∃ k' x, k = k' + 1 ∧ G.set[k']? = some x ∧ g.Link x y

theorem chainTraverse_wp (hwf : g.WF) (hf : g.DiagFirst) (hs : g.Sorted) (debug : Bool)
    (hn : 0 < g.n) : wp (chainTraverse debug g.n g.p g.i) (Done g) := by
  unfold chainTraverse
  rw [hwf.rd_p (le_refl _), ok_bind, wp_bind]
  refine wp_mono (inDegree_count hwf hf hs) ?_
  rintro deg ⟨hdl, hd⟩
  rw [wp_bind]
  refine wp_mono (leaves_sorted hdl) ?_
  rintro lv ⟨hl1, hl2⟩
  have hnop : ∀ v, v ∈ lv ↔ v < g.n ∧ ∀ u, ¬ g.Dep u v := by
    intro v
    rw [hl2]
    constructor
    · rintro ⟨h1, h2⟩
      refine ⟨h1, fun u hu => ?_⟩
      rw [hd v h1] at h2
      have := List.length_pos_of_mem ((mem_preds hwf hf hs).2 hu)
      omega
    · rintro ⟨h1, h2⟩
      refine ⟨h1, ?_⟩
      rw [hd v h1, List.length_eq_zero_iff, List.eq_nil_iff_forall_not_mem]
      intro u hu
      exact h2 u ((mem_preds hwf hf hs).1 hu)
  rw [wp_bind]
  have h0 : Inv g ⟨lv, [], List.replicate g.n false, false, 0, [], List.replicate g.n 0, 0⟩ := by
    have hE : listed ⟨lv, [], List.replicate g.n false, false, 0, [], List.replicate g.n 0, 0⟩ = [] := by
      simp [listed]
    refine ⟨by simp, by simp, Nat.zero_le _, ?_, ?_, ?_, by simp, ?_, ?_, ?_, ?_, ?_, ?_, by simp,
      by simp, by simp, by simp, ?_, by simp, rfl⟩
    · rw [hE]; simp only [List.nil_append]; exact hl1.imp (fun h => Nat.ne_of_lt h)
    · rw [hE]
      rintro v (h | h | h)
      · cases h
      · cases h
      · exact ((hl2 v).1 h).1
    · rw [List.append_nil]; exact hl1
    · intro v hv h
      dsimp only at h
      rw [getD_replicate _ _ _ _ hv] at h
      cases h
    · rw [hE]; intro v hv; cases hv
    · rw [hE]; intro v hv; cases hv
    · intro v hv hn
      exact .inr (.inr ((hnop v).2 ⟨hv, hn⟩))
    · rw [hE]
      rintro v (h | h | h)
      · cases h
      · cases h
      · exact .inr ((hnop v).1 h).2
    · intro r hr x hl
      exact ((hnop r).1 hr).2 x hl.1
    · intro k y hy
      rw [hE] at hy
      simp at hy
  refine whileF_wp (fun s => Inv g s ∧ s.stack = []) (fun s => g.n - s.cnt) ?_ _ _
    (by omega) ⟨h0, rfl⟩
  rintro s ⟨hI, hst⟩
  rw [wp_ok]
  by_cases hr : s.roots = []
  · rw [show (!s.roots.isEmpty) = false by simp [hr], if_neg (by decide)]
    -- all nodes are listed
    have hmem : ∀ v, v < g.n → v ∈ listed s := by
      intro v
      induction v using Nat.strong_induction_on with
      | _ v ih =>
        intro hv
        have key : v ∈ listed s ∨ v ∈ s.stack ∨ v ∈ s.roots := by
          by_cases hp : ∃ u, g.Dep u v
          · obtain ⟨u, hu⟩ := hp
            exact hI.closed u (ih u (dep_lt hwf hf hs hu) hu.1) v hu
          · exact hI.src v hv (fun u hu => hp ⟨u, hu⟩)
        rw [hst, hr] at key
        simpa using key
    have hnd : (listed s).Nodup := by
      have := hI.nodup
      rw [hst, hr] at this
      simpa using this
    have hperm : (listed s).Perm (List.range g.n) :=
      (List.perm_ext_iff_of_nodup hnd List.nodup_range).2 (fun v => by
        rw [List.mem_range]
        exact ⟨fun h => hI.lt v (.inl h), hmem v⟩)
    have hc : s.cnt = g.n := by
      rw [← hI.len, hperm.length_eq, List.length_range]
    have hset : listed s = s.set := by
      unfold listed
      rw [List.take_of_length_le (by rw [hI.slen, hc])]
    have hpne : s.ptr ≠ [] := by
      intro hp
      have h1 := hI.links 0 ((listed s).getD 0 0) (by
        rw [hst, List.append_nil]
        exact getElem?_getD 0 (by rw [hI.len]; omega)) (by rw [hp]; simp)
      obtain ⟨k', x, h1, _⟩ := h1
      omega
    have hlast : lastPtr s.ptr ∈ s.ptr := by
      unfold lastPtr
      have := List.length_pos_of_ne_nil hpne
      rw [List.getD_eq_getElem?_getD, List.getElem?_eq_getElem (by omega)]
      exact List.getElem_mem _
    have hllt := hI.plt hst _ hlast
    rw [back_eq hpne, ok_bind, wp_ok, if_pos (by omega)]
    have h00 : 0 ∈ s.ptr := by
      by_contra hp
      have h1 := hI.links 0 ((listed s).getD 0 0) (by
        rw [hst, List.append_nil]
        exact getElem?_getD 0 (by rw [hI.len]; omega)) hp
      obtain ⟨k', x, h1, _⟩ := h1
      omega
    have hps : (s.ptr ++ [s.cnt]).Pairwise (· < ·) := by
      rw [List.pairwise_append]
      refine ⟨hI.psort, by simp, ?_⟩
      intro x hx y hy
      rw [List.mem_singleton] at hy
      have := hI.plt hst x hx
      omega
    refine ⟨?_, hps, ?_, ?_, by rw [← hset]; exact hperm, ?_, ?_⟩
    · dsimp only; rw [List.length_append, hI.num]; rfl
    · dsimp only
      cases hp : s.ptr with
      | nil => exact absurd hp hpne
      | cons b t =>
        have hs' := hI.psort
        rw [hp] at h00 hs'
        rcases List.mem_cons.1 h00 with h | h
        · rw [← h]; rfl
        · have := (List.pairwise_cons.1 hs').1 0 h
          omega
    · dsimp only
      rw [hI.num, List.getD_eq_getElem?_getD, List.getElem?_append_right (le_refl _), Nat.sub_self]
      exact hc
    · intro k hk y hy
      dsimp only at hk hy
      rw [List.mem_append, List.mem_singleton] at hk
      rcases hk with hk | hk
      · exact hI.starts k hk y (by rw [hst, List.append_nil, hset]; exact hy)
      · rw [hk, List.getElem?_eq_none (by rw [hI.slen, hc])] at hy
        cases hy
    · intro k y hy hk
      dsimp only at hk hy ⊢
      rw [List.mem_append] at hk
      have := hI.links k y (by rw [hst, List.append_nil, hset]; exact hy) (fun h => hk (.inl h))
      rw [hst, List.append_nil, hset] at this
      exact this
  · have : (!s.roots.isEmpty) = true := by simp [hr]
    rw [this, if_pos rfl]
    have hw := chainRound_wp (debug := debug) hwf hf hs hdl hd hI hst hr
    obtain ⟨s', _, h1, _, h3⟩ := wp_iff.1 hw
    have := h1.cle
    refine ⟨by omega, wp_mono hw ?_⟩
    rintro t ⟨h4, h5, h6⟩
    have := h4.cle
    exact ⟨⟨h4, h5⟩, by omega⟩

end Verif.Chain
