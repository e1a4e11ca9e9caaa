import Verif.Proof.LbcPar
import Verif.Proof.GroupDag

/-! # The arrays of the schedule of LBC -/

namespace Verif

/-! ### Prefixes of arrays -/

open Res in
theorem wr_prefix {α : Type _} {a l : List α} (h : a <+: l) (hl : a.length < l.length) (v : α) :
    ∃ l', wr l a.length v = ok l' ∧ a ++ [v] <+: l' ∧ l'.length = l.length := by
  obtain ⟨r, rfl⟩ := h
  cases r with
  | nil => simp at hl
  | cons x r =>
    refine ⟨_, wr_eq hl, ⟨r, ?_⟩, by simp⟩
    rw [List.set_append_right _ _ (Nat.le_refl _)]
    simp

open Res in
theorem rd_prefix {α : Type _} {a l : List α} (h : a <+: l) (d : α) {k : Nat} (hk : k < a.length) :
    rd l k = ok (a.getD k d) := by
  obtain ⟨r, rfl⟩ := h
  rw [rd_getD d (by simp; omega), getD_append_left _ _ _ hk]

theorem getElem?_prefix {α : Type _} {a l : List α} (h : a <+: l) {k : Nat} (hk : k < a.length) :
    l[k]? = a[k]? := by
  obtain ⟨r, rfl⟩ := h
  rw [List.getElem?_append_left hk]

theorem PtrOk.of_prefix {a l : List Nat} (h : a <+: l) {m t : Nat} (hp : PtrOk a m t) : PtrOk l m t := by
  have hl := hp.len
  refine ⟨?_, ?_, ?_⟩
  · rw [getElem?_prefix h (by omega)]; exact hp.first
  · rw [getElem?_prefix h (by omega)]; exact hp.last
  · intro b hb lo hi h1 h2
    rw [getElem?_prefix h (by omega)] at h1
    rw [getElem?_prefix h (by omega)] at h2
    exact hp.mono b hb lo hi h1 h2

theorem InBlock.of_prefix {a l : List Nat} (h : a <+: l) {b k : Nat} (hb : b + 1 < a.length)
    (hi : InBlock l b k) : InBlock a b k := by
  obtain ⟨lo, hi, h1, h2, h3⟩ := hi
  rw [getElem?_prefix h (by omega)] at h1
  rw [getElem?_prefix h (by omega)] at h2
  exact ⟨lo, hi, h1, h2, h3⟩

/-- A schedule stays valid in longer arrays. -/
theorem Sched.Valid.of_prefix {s : Sched} {n : Nat} {dep : Nat → Nat → Prop} (h : s.Valid n dep)
    {lp pp ns : List Nat} (h1 : s.levelPtr <+: lp) (h2 : s.partPtr <+: pp) (h3 : s.nodes <+: ns)
    (hn : n ≤ s.nodes.length) : Sched.Valid ⟨s.levels, lp, pp, ns⟩ n dep := by
  obtain ⟨parts, p1, p2⟩ := h.ptrs
  refine ⟨⟨parts, p1.of_prefix h1, p2.of_prefix h2⟩, ?_, ?_⟩
  · have : ns.take n = s.nodes.take n := by
      obtain ⟨r, rfl⟩ := h3
      exact List.take_append_of_le_length hn
    unfold Sched.Complete
    rw [this]
    exact h.complete
  · have hat : ∀ v l q k, Sched.At ⟨s.levels, lp, pp, ns⟩ v l q k → s.At v l q k := by
      rintro v l q k ⟨a1, a2, a3, a4⟩
      dsimp only at a1 a2 a3 a4
      have l1 := p1.len
      have l2 := p2.len
      have b2 := a2.of_prefix h1 (by omega)
      have hq : q < parts := by
        have := (p1.inBlock_iff a1).1 b2
        have := p1.dle (b := l + 1) (by omega)
        omega
      have b3 := a3.of_prefix h2 (by omega)
      have hk : k < n := by
        have := (p2.inBlock_iff hq).1 b3
        have := p2.dle (b := q + 1) (by omega)
        omega
      rw [getElem?_prefix h3 (by omega)] at a4
      exact ⟨a1, b2, b3, a4⟩
    intro u v hd l q k l' q' k' ha hb
    exact h.respects u v hd l q k l' q' k' (hat _ _ _ _ ha) (hat _ _ _ _ hb)

end Verif

namespace Verif.Lbc
open Res Csc LevelSet Hdagg

variable {g : Csc} {L cnt : Nat}

/-! ### One coarse level from its parts -/

/-- The boundaries of parts. -/
def cutsOf (ps : List (List Nat)) : List Nat :=
  (List.range (ps.length + 1)).map (fun k => (ps.take k).flatten.length)

theorem cutsOf_getD {ps : List (List Nat)} {k : Nat} (hk : k ≤ ps.length) :
    (cutsOf ps).getD k 0 = (ps.take k).flatten.length := by
  unfold cutsOf
  rw [List.getD_eq_getElem?_getD, List.getElem?_map, List.getElem?_range (by omega)]
  rfl

theorem cutsOf_length (ps : List (List Nat)) : (cutsOf ps).length = ps.length + 1 := by
  simp [cutsOf]

theorem WinParts.level {dep : Nat → Nat → Prop} {W : List Nat} {ps : List (List Nat)}
    (h : WinParts dep W ps) (hn : W.Nodup) :
    LevelPartsOk dep (fun _ _ => True) (cutsOf ps) ps.flatten ps.length := by
  have hnd : ps.flatten.Nodup := h.perm.nodup_iff.2 hn
  refine ⟨PtrOk.mk' (by rw [cutsOf_length]; omega) ?_ ?_ ?_, cutsOf_length _, ?_⟩
  · rw [cutsOf_getD (Nat.zero_le _)]; simp
  · rw [cutsOf_getD (Nat.le_refl _)]; simp
  · intro b hb
    rw [cutsOf_getD (by omega), cutsOf_getD (by omega)]
    exact Group.flatten_take_le ps (Nat.le_succ b)
  · intro u v hd k k' hk hk'
    obtain ⟨p, hp, hs⟩ := h.together u v hd (h.perm.mem_iff.1 (List.mem_of_getElem? hk))
      (h.perm.mem_iff.1 (List.mem_of_getElem? hk'))
    obtain ⟨q, hq⟩ := List.mem_iff_getElem?.1 hp
    have hql := (List.getElem?_eq_some_iff.1 hq).1
    have hpq : ps.getD q [] = p := by rw [List.getD_eq_getElem?_getD, hq]; rfl
    rw [List.cons_sublist_iff] at hs
    obtain ⟨r1, r2, rfl, hu, hv⟩ := hs
    rw [List.singleton_sublist] at hv
    obtain ⟨i, hi⟩ := List.mem_iff_getElem?.1 hu
    obtain ⟨j, hj⟩ := List.mem_iff_getElem?.1 hv
    have hil := (List.getElem?_eq_some_iff.1 hi).1
    have hjl := (List.getElem?_eq_some_iff.1 hj).1
    have hsl := Group.slice_flatten ps hql
    rw [hpq] at hsl
    have hlen : (ps.take (q + 1)).flatten.length = (ps.take q).flatten.length + (r1 ++ r2).length := by
      rw [Group.flatten_take_succ ps hql, hpq, List.length_append]
    rw [List.length_append] at hlen
    have hat : ∀ i x, (r1 ++ r2)[i]? = some x →
        ps.flatten[(ps.take q).flatten.length + i]? = some x := by
      intro i x hix
      rw [← hsl, getElem?_slice] at hix
      split at hix
      · exact hix
      · cases hix
    have e1 := hat i u (by rw [List.getElem?_append_left hil]; exact hi)
    have e2 := hat (r1.length + j) v (by
      rw [List.getElem?_append_right (by omega), Nat.add_sub_cancel_left]; exact hj)
    have k1 := nodup_getElem?_inj hnd hk e1
    have k2 := nodup_getElem?_inj hnd hk' e2
    refine ⟨q, hql, ?_⟩
    rw [cutsOf_getD (by omega), cutsOf_getD (by omega)]
    refine ⟨by omega, by omega, by omega, by omega, fun _ => by omega⟩

/-! ### Emission -/

/-- The arrays start with the given schedule. -/
structure Emitted (n : Nat) (e : Emit) (pp ns : List Nat) : Prop where
  lpLen : e.levelPtr.length = n + 1
  ppLen : e.partPtr.length = n
  nsLen : e.nodes.length = n
  cur : e.cur + 1 = pp.length
  pre : pp <+: e.partPtr
  npre : ns <+: e.nodes
  last : pp.getD e.cur 0 = ns.length

section
variable {K : Type}

theorem emitPart_wp {n : Nat} {nodeCost : List K} (hcost : nodeCost.length = n) {e : Emit}
    {pp ns part : List Nat} (h : Emitted n e pp ns) (hpp : pp.length < n)
    (hns : ns.length + part.length ≤ n) (hpart : ∀ x ∈ part, x < n) :
    wp (emitPart nodeCost part e) (fun e' =>
      Emitted n e' (pp ++ [ns.length + part.length]) (ns ++ part) ∧ e'.levelPtr = e.levelPtr) := by
  have hcur := h.cur
  unfold emitPart
  rw [rd_prefix h.pre 0 (by omega), ok_bind, h.last, wp_bind]
  have key := forEach_wp (fun p (s : Nat × List Nat) => s.1 = p.length ∧ s.2.length = n ∧
      ns ++ p <+: s.2) (f := fun x (s : Nat × List Nat) => do
    let _ ← rd nodeCost x
    let nodes ← wr s.2 (ns.length + s.1) x
    ok (s.1 + 1, nodes)) part [] (0, e.nodes) ⟨rfl, h.nsLen, by simpa using h.npre⟩ ?_
  · refine wp_mono key ?_
    rintro ⟨c, nodes⟩ ⟨h1, h2, h3⟩
    dsimp only at h1 h2 h3 ⊢
    rw [List.nil_append] at h1 h3
    obtain ⟨pp', w1, w2, w3⟩ := wr_prefix h.pre (by rw [h.ppLen]; omega) (ns.length + c)
    rw [hcur, w1, ok_bind, wp_ok]
    rw [h1] at w2
    refine ⟨⟨h.lpLen, by rw [w3]; exact h.ppLen, h2, by simp, w2, h3, ?_⟩, rfl⟩
    dsimp only
    rw [getD_append_right _ _ _ (by omega), ← hcur]
    simp
  · rintro p x q ⟨c, nodes⟩ he ⟨h1, h2, h3⟩
    rw [List.nil_append] at he
    dsimp only at h1 h2 h3 ⊢
    have hx : x < n := hpart x (by rw [he]; simp)
    have hlen : part.length = p.length + (q.length + 1) := by rw [he]; simp
    rw [rd_eq (by omega), ok_bind]
    obtain ⟨ns', w1, w2, w3⟩ := wr_prefix h3 (by rw [List.length_append]; omega) x
    rw [List.length_append] at w1
    rw [h1, w1, ok_bind, wp_ok]
    exact ⟨by simp, by rw [w3]; exact h2, by rw [← List.append_assoc]; exact w2⟩

theorem emitWindow_wp {n : Nat} {nodeCost : List K} (hcost : nodeCost.length = n) {e : Emit}
    {lp pp ns : List Nat} {merged : List (List Nat)} {l : Nat} (h : Emitted n e pp ns)
    (hlp : lp <+: e.levelPtr) (hll : lp.length = l + 1) (hln : l < n) (hlast : lp.getD l 0 = e.cur)
    (hpp : pp.length + merged.length ≤ n) (hns : ns.length + merged.flatten.length ≤ n)
    (hpart : ∀ x ∈ merged.flatten, x < n) :
    wp (emitWindow nodeCost l merged.length merged e) (fun e' =>
      Emitted n e' (pp ++ (cutsOf merged).tail.map (· + ns.length)) (ns ++ merged.flatten) ∧
      lp ++ [e.cur + merged.length] <+: e'.levelPtr) := by
  unfold emitWindow
  rw [rd_prefix hlp 0 (by omega), ok_bind, hlast]
  obtain ⟨lp', w1, w2, w3⟩ := wr_prefix hlp (by rw [h.lpLen]; omega) (e.cur + merged.length)
  rw [← hll, w1, ok_bind]
  have htail : ∀ k, k ≤ merged.length → ((cutsOf merged).tail.map (· + ns.length)).take k
      = (List.range k).map (fun j => (merged.take (j + 1)).flatten.length + ns.length) := by
    intro k hk
    apply List.ext_getElem?
    intro j
    rw [List.getElem?_take, List.getElem?_map, List.getElem?_map, List.getElem?_tail]
    by_cases hj : j < k
    · rw [if_pos hj, List.getElem?_range hj, getElem?_getD 0 (by rw [cutsOf_length]; omega),
        cutsOf_getD (by omega)]
      rfl
    · rw [if_neg hj, List.getElem?_eq_none (by simpa using hj)]
      rfl
  refine forRange_wp' (fun k (e' : Emit) => Emitted n e'
      (pp ++ ((cutsOf merged).tail.map (· + ns.length)).take k) (ns ++ (merged.take k).flatten) ∧
      e'.levelPtr = lp') (Nat.zero_le _) ?_ ?_ ?_
  · simp only [List.take_zero, List.append_nil, List.flatten_nil]
    exact ⟨⟨by rw [w3]; exact h.lpLen, h.ppLen, h.nsLen, h.cur, h.pre, h.npre, h.last⟩, trivial⟩
  · rintro k e' _ hk ⟨h1, h2⟩
    rw [rd_getD [] hk, ok_bind]
    have hft := Group.flatten_take_succ merged hk
    have hfl := Group.flatten_take_le merged (a := k + 1) (b := merged.length) (by omega)
    rw [hft, List.take_length, List.length_append] at hfl
    rw [htail k (by omega)] at h1
    refine wp_mono (emitPart_wp hcost h1 (by simp; omega) (by rw [List.length_append]; omega) ?_) ?_
    · intro x hx
      apply hpart
      rw [List.mem_flatten]
      exact ⟨_, List.mem_of_getElem? (getElem?_getD [] hk), hx⟩
    · rintro e'' ⟨h3, h4⟩
      refine ⟨?_, h4.trans h2⟩
      rw [htail (k + 1) (by omega), hft, List.range_succ, List.map_append, ← List.append_assoc,
        ← List.append_assoc]
      have : (ns ++ (List.take k merged).flatten).length + (merged.getD k []).length
          = (List.take (k + 1) merged).flatten.length + ns.length := by
        rw [hft, List.length_append, List.length_append]; omega
      rw [this] at h3
      exact h3
  · rintro e' ⟨h1, h2⟩
    rw [List.take_length, List.take_of_length_le (by simp [cutsOf_length])] at h1
    exact ⟨h1, by rw [h2]; exact w2⟩

/-- The number of parts of the first `k` windows. -/
def partsUpTo (out : List Nat) (k : Nat) : Nat := ((List.range k).map (fun l => out.getD l 0)).sum

theorem partsUpTo_succ (out : List Nat) (k : Nat) :
    partsUpTo out (k + 1) = partsUpTo out k + out.getD k 0 := by
  simp [partsUpTo, List.range_succ]

theorem partsUpTo_mono (out : List Nat) {a b : Nat} (h : a ≤ b) : partsUpTo out a ≤ partsUpTo out b := by
  induction b with
  | zero => obtain rfl : a = 0 := by omega
            exact Nat.le_refl _
  | succ b ih =>
    rcases Nat.lt_or_ge a (b + 1) with h1 | h1
    · have := ih (by omega)
      rw [partsUpTo_succ]; omega
    · obtain rfl : a = b + 1 := by omega
      exact Nat.le_refl _

/-- The arrays after the first `k` windows, with `p` parts. -/
def EmInv (g : Csc) (L : Nat) (V : Wins) (k p : Nat) (e : Emit) : Prop :=
  ∃ s : Sched, Built g.Dep (fun _ _ => True) k p s ∧
    s.nodes.Perm (win V.levelPtr V.levelSet 0 (min (V.lo k) L)) ∧ s.levelPtr <+: e.levelPtr ∧
    Emitted g.n e s.partPtr s.nodes

theorem EmInv.start {V : Wins} (h : WinsCore g L cnt V) : EmInv g L V 0 0 (Emit.start g.n) := by
  refine ⟨⟨0, [0], [0], []⟩, Built.empty _ _ _, ?_, ?_, ?_⟩
  · have : V.lo 0 = 0 := by unfold Wins.lo; rw [h.cuts.first]; rfl
    rw [this, Nat.zero_min]
    simp [win, slice_self]
  · refine ⟨List.replicate g.n 0, ?_⟩
    simp [Emit.start, List.replicate_succ]
  · have hn : 0 < g.n := by
      have h1 := (h.lo_spec h.cuts.cnt_pos).1
      have h2 := h.lvl.lN
      omega
    refine ⟨by simp [Emit.start], by simp [Emit.start], by simp [Emit.start], rfl, ?_, ?_, rfl⟩
    · refine ⟨List.replicate (g.n - 1) 0, ?_⟩
      unfold Emit.start
      dsimp only
      obtain ⟨m, hm⟩ : ∃ m, g.n = m + 1 := ⟨g.n - 1, by omega⟩
      rw [hm, List.replicate_succ]
      rfl
    · exact List.nil_prefix

theorem WinsCore.cnt_le {V : Wins} (h : WinsCore g L cnt V) : cnt ≤ L := by
  have : ∀ w, w ≤ cnt → (w : Int) ≤ V.bound.getD w 0 := by
    intro w
    induction w with
    | zero => intro _; rw [h.cuts.first]; omega
    | succ w ih => intro hw; have := h.cuts.inc w (by omega); have := ih (by omega); omega
  have h1 := h.cuts.cnt_pos
  have h2 := this (cnt - 1) (by omega)
  have h3 := h.cuts.inner (cnt - 1) (by omega)
  omega

theorem EmInv.step (hwf : g.WF) {V : Wins} (h : WinsCore g L cnt V) {nodeCost : List K}
    (hcost : nodeCost.length = g.n) {k p : Nat} (hk : k < cnt) {e : Emit} (hI : EmInv g L V k p e)
    {merged : List (List Nat)} (hG : WinParts g.Dep (V.nodes L k) merged)
    (hp : p + merged.length < g.n) :
    wp (emitWindow nodeCost k merged.length merged e) (EmInv g L V (k + 1) (p + merged.length)) := by
  obtain ⟨s, hB, hperm, hlp, hE⟩ := hI
  have hO := h.lvl
  have hLn := h.lvl.lN
  have hcn := h.cnt_le
  obtain ⟨c1, c2, c3⟩ := h.lo_spec hk
  have hcur : e.cur = p := by
    have h1 := hE.cur
    rw [hB.ptLen] at h1
    omega
  have hWn : (V.nodes L k).Nodup := LevelOk.win_nodup hO _ _
  have happ : win V.levelPtr V.levelSet 0 (min (V.lo (k + 1)) L)
      = win V.levelPtr V.levelSet 0 (V.lo k) ++ V.nodes L k :=
    win_append hO (by omega) (by omega) (by omega)
  have hmin : min (V.lo k) L = V.lo k := by omega
  rw [hmin] at hperm
  have hnew : (s.nodes ++ merged.flatten).Perm
      (win V.levelPtr V.levelSet 0 (min (V.lo (k + 1)) L)) := by
    rw [happ]
    exact hperm.append hG.perm
  have hle : (s.nodes ++ merged.flatten).length ≤ g.n := by
    rw [hnew.length_eq, win_length hO (by omega)]
    have := hO.ptr_le (a := min (V.lo (k + 1)) L) (by omega)
    omega
  rw [List.length_append] at hle
  refine wp_mono (emitWindow_wp hcost hE hlp hB.lvLen (by omega) ?_ ?_ hle ?_) ?_
  · rw [hcur]; exact hB.lv.dlast
  · rw [hB.ptLen]; omega
  · intro x hx
    exact ((h.mem_nodes hk x).1 (hG.perm.mem_iff.1 hx)).1
  · rintro e' ⟨hE', hlp'⟩
    refine ⟨s.push p (cutsOf merged) merged.flatten merged.length, ?_, hnew, ?_, hE'⟩
    · refine hB.push (hG.level hWn) ?_
      intro u v hd hu hv
      have hu' := (h.mem_nodes hk u).1 (hG.perm.mem_iff.1 hu)
      have hv' := (LevelOk.mem_win hO (lb := 0) (ub := V.lo k) (by omega) (by omega) v).1 (hperm.mem_iff.1 hv)
      have := LevelOk.dep_lt hwf hO hd
      omega
    · rw [← hcur]; exact hlp'

theorem EmInv.final {V : Wins} (h : WinsCore g L cnt V) {p : Nat} {e : Emit} (hI : EmInv g L V cnt p e) :
    Sched.Valid ⟨cnt, e.levelPtr, e.partPtr, e.nodes⟩ g.n g.Dep ∧ e.nodes.length = g.n := by
  obtain ⟨s, hB, hperm, hlp, hE⟩ := hI
  have hO := h.lvl
  have htop : min (V.lo cnt) L = L := by
    have := h.cuts.last
    unfold Wins.lo
    omega
  rw [htop] at hperm
  have hall : s.nodes.Perm (List.range g.n) := by
    refine hperm.trans ?_
    have : win V.levelPtr V.levelSet 0 L = V.levelSet := by
      unfold win
      rw [hO.ptr0, hO.ptrL, slice_zero, List.take_of_length_le (by rw [hO.setLen])]
    rw [this]
    exact hO.perm
  have hlen : s.nodes.length = g.n := by simpa using hall.length_eq
  have hB' : Built g.Dep (fun _ _ => True) cnt p { s with levels := cnt } :=
    ⟨hB.lv, hB.lvLen, hB.pt, hB.ptLen, hB.resp⟩
  have hval := (hB'.valid rfl (n := g.n) hall).mono (D' := g.Dep) fun _ _ h => ⟨h, trivial⟩
  exact ⟨hval.of_prefix hlp hE.pre hE.npre (by dsimp only; omega), hE.nsLen⟩

theorem emit_wp (hwf : g.WF) {V : Wins} (h : WinsCore g L cnt V) {bp : Bool} {sh : Shared}
    (hsh : Done g V L cnt bp (List.range cnt) sh) {nodeCost : List K} (hcost : nodeCost.length = g.n)
    (hparts : partsUpTo sh.out cnt < g.n) :
    wp (forRange 0 cnt (fun l e => do
      let outParts ← rd sh.out l
      let merged ← rd sh.merged l
      emitWindow nodeCost l outParts merged e) (Emit.start g.n)) (fun e =>
        Sched.Valid ⟨cnt, e.levelPtr, e.partPtr, e.nodes⟩ g.n g.Dep ∧ e.nodes.length = g.n) := by
  obtain ⟨hs1, hs2, hs3⟩ := hsh
  refine forRange_wp' (fun k e => EmInv g L V k (partsUpTo sh.out k) e) (Nat.zero_le _)
    (EmInv.start h) ?_ (fun e hI => hI.final h)
  intro k e _ hk hI
  have hG := hs3 k (List.mem_range.2 hk)
  rw [rd_getD 0 (by omega), ok_bind, rd_getD [] (by omega), ok_bind, ← hG.len]
  have hp1 := partsUpTo_mono sh.out (a := k + 1) (b := cnt) (by omega)
  rw [partsUpTo_succ, ← hG.len] at hp1
  rw [partsUpTo_succ, ← hG.len]
  exact hI.step hwf h hcost hk hG.parts (by omega)

end

/-! ### The verification -/

theorem verifySet_wp (debug : Bool) {n cnt : Nat} {e : Emit} {dep : Nat → Nat → Prop}
    (hn : e.nodes.length = n) (h : Sched.Valid ⟨cnt, e.levelPtr, e.partPtr, e.nodes⟩ n dep) :
    wp (verifySet debug n cnt e) (fun _ => True) := by
  obtain ⟨parts, p1, p2⟩ := h.ptrs
  dsimp only at p1 p2
  have hperm : e.nodes.Perm (List.range n) := by
    have := h.complete
    unfold Sched.Complete at this
    rwa [List.take_of_length_le (by dsimp only; omega)] at this
  have hnd : e.nodes.Nodup := hperm.nodup_iff.2 List.nodup_range
  let I : Nat → List Bool → Prop := fun k s => s.length = n ∧
    ∀ x, x < n → (s.getD x false = true ↔ x ∈ e.nodes.take k)
  have hpos : ∀ k s, k < n → I k s → wp (do
        let x ← rd e.nodes k
        let v ← rd s x
        if debug = true ∧ v = true then exn else wr s x true) (I (k + 1)) := by
    rintro k s hk ⟨h1, h2⟩
    have hget : e.nodes[k]? = some (e.nodes.getD k 0) := getElem?_getD 0 (by omega)
    have hx : e.nodes.getD k 0 < n := by
      have := hperm.mem_iff.1 (List.mem_of_getElem? hget)
      simpa using this
    have hnot : e.nodes.getD k 0 ∉ e.nodes.take k := by
      intro hc
      obtain ⟨j, hj⟩ := List.mem_iff_getElem?.1 hc
      rw [List.getElem?_take] at hj
      split at hj
      · have := nodup_getElem?_inj hnd hj hget
        omega
      · cases hj
    rw [rd_getD 0 (by omega), ok_bind, rd_getD false (by omega), ok_bind, if_neg, wr_eq (by omega), wp_ok]
    · refine ⟨by simpa using h1, ?_⟩
      intro x hx'
      rw [getD_set, List.take_add_one, hget, List.mem_append]
      by_cases hxe : x = e.nodes.getD k 0
      · rw [if_pos ⟨by omega, by omega⟩]
        simp [hxe]
      · rw [if_neg (by omega), h2 x hx']
        simp only [Option.toList_some, List.mem_singleton]
        exact ⟨.inl, fun h => h.resolve_right hxe⟩
    · rintro ⟨-, hc⟩
      exact hnot ((h2 _ hx).1 hc)
  unfold verifySet
  rw [wp_bind]
  have key := forRange_wp' (fun i s => I (e.partPtr.getD (e.levelPtr.getD i 0) 0) s) (Nat.zero_le cnt)
    (s := List.replicate n false) (f := fun i s => do
    let a ← rd e.levelPtr i
    let b ← rd e.levelPtr (i + 1)
    forRange a b (fun k s => do
      let a ← rd e.partPtr k
      let b ← rd e.partPtr (k + 1)
      forRange a b (fun j s => do
        let x ← rd e.nodes j
        let v ← rd s x
        if debug = true ∧ v = true then exn else wr s x true) s) s) (Q := I n) ?_ ?_ ?_
  · refine wp_mono key ?_
    rintro s ⟨h1, h2⟩
    refine forRange_wp' (fun _ _ => True) (Nat.zero_le _) trivial ?_ (fun _ _ => trivial)
    intro i _ _ hi _
    rw [rd_getD false (by omega), ok_bind, if_neg, wp_ok]
    · trivial
    · rintro ⟨-, hc⟩
      have : s.getD i false = true := by
        rw [h2 i hi, List.take_of_length_le (by omega), hperm.mem_iff]
        simpa using hi
      rw [this] at hc
      cases hc
  · rw [p1.d0, p2.d0]
    refine ⟨by simp, ?_⟩
    intro x hx
    rw [getD_replicate _ _ _ _ hx]
    simp
  · intro i s _ hi hI
    have l1 := p1.len
    have l2 := p2.len
    rw [rd_getD 0 (by omega), ok_bind, rd_getD 0 (by omega), ok_bind]
    have hle := p1.dle (b := i + 1) (by omega)
    refine forRange_wp' (fun q s => I (e.partPtr.getD q 0) s) (p1.dmono hi) hI ?_ (fun _ h => h)
    intro q s hq1 hq2 hI
    rw [rd_getD 0 (by omega), ok_bind, rd_getD 0 (by omega), ok_bind]
    have hle' := p2.dle (b := q + 1) (by omega)
    refine forRange_wp' I (p2.dmono (by omega)) hI ?_ (fun _ h => h)
    intro k s _ hk hI
    exact hpos k s (by omega) hI
  · intro s hI
    rw [p1.dlast, p2.dlast] at hI
    exact hI

end Verif.Lbc
