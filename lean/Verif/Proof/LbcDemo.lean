import Verif.Proof.LbcSeqAll
import Verif.Proof.LbcExt
import Verif.Props.Ungroup
import Verif.Props.RunGroup
import Verif.Model.LbcDemo

/-! # Sorting the parts, un-grouping without sorting, chains -/

namespace Verif
open Res Csc Verif.Group Hdagg

/-- A schedule of groups gives a schedule of the rows. -/
theorem expand_valid {g : Csc} {G : Grouping} {s : Sched} (hg : g.WF) (hG : G.Partition g.n)
    (hin : ∀ j, j < G.num → (groupRows G.ptr G.set j).Pairwise (fun x y => ¬ g.Dep y x))
    (hs : s.Valid G.num (G.Dep g)) : (s.expand G.ptr G.set).Valid g.n g.Dep := by
  obtain ⟨parts, h1, h2⟩ := hs.ptrs
  have h : UngroupPre s G g parts :=
    ⟨hg, hG, h1, h2, hs.complete, (GroupSchedOk.of_valid hs).together⟩
  have hv := unpack_valid h hin hs.respects
  refine hv.of_prefix (lp := s.levelPtr) (List.prefix_refl _) ?_ ?_ (by
    have := (unpackedTo_perm hG hs.complete).length_eq
    simp only [List.length_range] at this
    dsimp only; omega)
  · dsimp only
    have hl := h2.len
    have e : unpackPtr s G parts = (s.partPtr.take (parts + 1)).map
        (fun k => (unpackedTo s G k).length) := by
      unfold unpackPtr
      apply List.ext_getElem?
      intro k
      rw [List.getElem?_map, List.getElem?_map, List.getElem?_take]
      by_cases hk : k < parts + 1
      · rw [if_pos hk, List.getElem?_range hk, getElem?_getD 0 (by omega)]
        rfl
      · rw [if_neg hk, List.getElem?_eq_none (by simp; omega)]
        rfl
    rw [e]
    exact (List.take_prefix _ _).map _
  · dsimp only
    obtain ⟨r, hr⟩ := List.take_prefix G.num s.nodes
    refine ⟨r.flatMap (groupRows G.ptr G.set), ?_⟩
    unfold unpackedTo
    rw [← List.flatMap_append, hr]

namespace Lbc

/-- Sorting the parts by node number keeps a schedule valid if all dependences go to larger nodes. -/
theorem sortAllParts_wp {s : Sched} {n : Nat} {dep : Nat → Nat → Prop} (h : s.Valid n dep)
    (hn : s.nodes.length = n) (hlow : ∀ u v, dep u v → u < v) :
    wp (sortAllParts s) (fun r => r.Valid n dep ∧ r.nodes.length = n) := by
  obtain ⟨parts, h1, h2⟩ := h.ptrs
  have l1 := h1.len
  have l2 := h2.len
  have e0 : s.levelPtr.getD s.levels 0 = parts := h1.dlast
  unfold sortAllParts
  rw [rd_getD 0 (by omega), ok_bind, e0, wp_bind]
  have hp : PtrOk s.partPtr parts s.nodes.length := by rw [hn]; exact h2
  refine wp_mono (blocks_loop (R := (· ≤ ·)) hp ?_) ?_
  · intro t ht l hperm
    rw [rd_getD 0 (by omega), ok_bind, rd_getD 0 (by omega), ok_bind]
    have := hp.dle (b := t + 1) ht
    exact sortRange_spec (hp.dmono ht) (by rw [hperm.length_eq]; exact this)
  · rintro l ⟨g1, g2⟩
    rw [wp_ok]
    have hl : l.length = n := by rw [g1.length_eq, hn]
    have hperm : l.Perm (List.range n) := by
      have := h.complete
      unfold Sched.Complete at this
      rw [List.take_of_length_le (by omega)] at this
      exact g1.trans this
    refine ⟨⟨⟨parts, h1, h2⟩, ?_, ?_⟩, hl⟩
    · unfold Sched.Complete
      dsimp only
      rw [List.take_of_length_le (by omega)]
      exact hperm
    · have hat : ∀ u lv q k, Sched.At { s with nodes := l } u lv q k → q < parts ∧
          s.partPtr.getD q 0 ≤ k ∧ k < s.partPtr.getD (q + 1) 0 ∧ l[k]? = some u ∧
          ∃ k0, s.At u lv q k0 := by
        rintro u lv q k ⟨a1, a2, a3, a4⟩
        dsimp only at a1 a2 a3 a4
        have hq : q < parts := by
          have := (h1.inBlock_iff a1).1 a2
          have := h1.dle (b := lv + 1) a1
          omega
        have hk := (h2.inBlock_iff hq).1 a3
        have hm : u ∈ slice l (s.partPtr.getD q 0) (s.partPtr.getD (q + 1) 0) :=
          mem_slice.2 ⟨k, hk.1, hk.2, a4⟩
        rw [(g2 q hq).1.mem_iff] at hm
        obtain ⟨k0, e1, e2, e3⟩ := mem_slice.1 hm
        exact ⟨hq, hk.1, hk.2, a4, k0, a1, a2, (h2.inBlock_iff hq).2 ⟨e1, e2⟩, e3⟩
      intro u v huv lv q k lv' q' k' hu hv
      obtain ⟨q1, k1, k2, e1, k0, hA⟩ := hat u lv q k hu
      obtain ⟨q1', k1', k2', e1', k0', hB⟩ := hat v lv' q' k' hv
      rcases h.respects u v huv _ _ _ _ _ _ hA hB with hlt | ⟨rfl, rfl, -⟩
      · exact .inl hlt
      · refine .inr ⟨rfl, rfl, ?_⟩
        have hlt := hlow u v huv
        by_contra hc
        rcases Nat.lt_or_ge k' k with hkk | hkk
        · have hpw := List.pairwise_iff_getElem.1 (g2 q q1).2
          have x1 : (slice l (s.partPtr.getD q 0) (s.partPtr.getD (q + 1) 0))[
              k - s.partPtr.getD q 0]? = some u := by
            rw [getElem?_slice, if_pos (by omega), show _ + (k - _) = k by omega]
            exact e1
          have x2 : (slice l (s.partPtr.getD q 0) (s.partPtr.getD (q + 1) 0))[
              k' - s.partPtr.getD q 0]? = some v := by
            rw [getElem?_slice, if_pos (by omega), show _ + (k' - _) = k' by omega]
            exact e1'
          obtain ⟨p1, p2⟩ := List.getElem?_eq_some_iff.1 x1
          obtain ⟨p3, p4⟩ := List.getElem?_eq_some_iff.1 x2
          have := hpw _ _ p3 p1 (by omega)
          rw [p2, p4] at this
          omega
        · have : k = k' := by omega
          subst this
          rw [e1, Option.some.injEq] at e1'
          omega

theorem rowCosts_wp {K : Type} (conv : Int → K) (zero : K) {n : Nat} {p : List Nat}
    (hp : n < p.length) : wp (rowCosts conv zero n p) (fun c => c.length = n) := by
  unfold rowCosts
  refine forRange_wp (fun _ (c : List K) => c.length = n) (Nat.zero_le _) (by simp) ?_
  intro i c _ hi hc
  rw [rd_getD 0 (by omega), ok_bind, rd_getD 0 (by omega), ok_bind, wr_eq (by omega), wp_ok]
  simpa using hc

theorem groupCosts_wp {K : Type} (conv : Int → K) (zero : K) {o : RunGroup.Out} {p : List Nat}
    {n : Nat} (hp : n < p.length) (ho : PtrOk o.ptr o.num n) (hs : n ≤ o.set.length)
    (hset : ∀ k, k < n → o.set.getD k 0 < n) :
    wp (groupCosts conv zero o p) (fun c => c.length = o.num) := by
  unfold groupCosts
  refine forRange_wp (fun _ (c : List K) => c.length = o.num) (Nat.zero_le _) (by simp) ?_
  intro i c _ hi hc
  have hl := ho.len
  rw [rd_getD 0 (by omega), ok_bind, rd_getD 0 (by omega), ok_bind]
  refine forRange_wp (fun _ (c : List K) => c.length = o.num) (ho.dmono hi) hc ?_
  intro j c _ hj hc
  have := ho.dle (b := i + 1) hi
  have h1 := hset j (by omega)
  rw [rd_getD 0 (by omega), ok_bind, rd_getD 0 (by omega), ok_bind, rd_getD 0 (by omega), ok_bind,
    wr_eq (by omega), wp_ok]
  simpa using hc

/-- The nodes of a path. -/
theorem _root_.Verif.Csc.PathTo.before {g : Csc} (hwf : g.WF) {k v : Nat} (h : g.PathTo k v) :
    ∃ l : List Nat, l.length = k ∧ (∀ u ∈ l, u < g.n) ∧ v < g.n ∧
      l.Pairwise (Relation.TransGen g.Dep) ∧ ∀ u ∈ l, Relation.TransGen g.Dep u v := by
  induction h with
  | nil hv => exact ⟨[], rfl, by simp, hv, .nil, by simp⟩
  | @snoc k u v h hd ih =>
    obtain ⟨l, h1, h2, h3, h4, h5⟩ := ih
    refine ⟨l ++ [u], by simp [h1], ?_, (hwf.dep_lt hd).2, ?_, ?_⟩
    · intro x hx
      rcases List.mem_append.1 hx with hx | hx
      · exact h2 x hx
      · rw [List.mem_singleton] at hx
        rw [hx]; exact h3
    · rw [List.pairwise_append]
      refine ⟨h4, by simp, ?_⟩
      intro a ha b hb
      rw [List.mem_singleton] at hb
      rw [hb]
      exact h5 a ha
    · intro x hx
      rcases List.mem_append.1 hx with hx | hx
      · exact (h5 x hx).tail hd
      · rw [List.mem_singleton] at hx
        rw [hx]; exact .single hd

/-- If a path visits all nodes, then any two nodes depend on each other. -/
theorem comparable_of_path {g : Csc} (hwf : g.WF) (hac : g.Acyclic) {v : Nat}
    (h : g.PathTo (g.n - 1) v) {a b : Nat} (ha : a < g.n) (hb : b < g.n) (hne : a ≠ b) :
    Relation.TransGen g.Dep a b ∨ Relation.TransGen g.Dep b a := by
  obtain ⟨l, h1, h2, h3, h4, h5⟩ := h.before hwf
  have hpw : (l ++ [v]).Pairwise (Relation.TransGen g.Dep) := by
    rw [List.pairwise_append]
    refine ⟨h4, by simp, ?_⟩
    intro a ha b hb
    rw [List.mem_singleton] at hb
    rw [hb]
    exact h5 a ha
  have hnd : (l ++ [v]).Nodup := hpw.imp (fun h e => by subst e; exact hac _ h)
  have hall : ∀ x, x < g.n → x ∈ l ++ [v] := by
    intro x hx
    have hsub : (l ++ [v]) ⊆ List.range g.n := by
      intro y hy
      rw [List.mem_range]
      rcases List.mem_append.1 hy with hy | hy
      · exact h2 y hy
      · rw [List.mem_singleton] at hy
        rw [hy]; exact h3
    have := (List.subperm_of_subset hnd hsub).perm_of_length_le (by simp [h1]; omega)
    exact this.mem_iff.2 (List.mem_range.2 hx)
  obtain ⟨i, hi, ei⟩ := List.getElem_of_mem (hall a ha)
  obtain ⟨j, hj, ej⟩ := List.getElem_of_mem (hall b hb)
  have := List.pairwise_iff_getElem.1 hpw
  rcases Nat.lt_trichotomy i j with hij | hij | hij
  · left
    have := this i j hi hj hij
    rwa [ei, ej] at this
  · subst hij
    exact absurd (ei.symm.trans ej) hne
  · right
    have := this j i hj hi hij
    rwa [ei, ej] at this

end Lbc
end Verif
