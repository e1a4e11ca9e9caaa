import Verif.Proof.Final
import Verif.Proof.GroupDag
import Verif.Spec.Group

/-! # `convertCNScheduleToSuperNode` -/

namespace Verif.Final
open Res
open Verif.Group

/-- The rows of supernode `c`. -/
def superRows (sp : List Nat) (c : Nat) : List Nat :=
  List.range' (sp.getD c 0) (sp.getD (c + 1) 0 - sp.getD c 0)

theorem groupRows_range {sp : List Nat} {ns n c : Nat} (h : PtrOk sp ns n) (hc : c < ns) :
    groupRows sp (List.range n) c = superRows sp c := by
  unfold groupRows superRows
  have := h.dle (b := c + 1) hc
  have := h.dmono hc
  apply List.ext_getElem?
  intro k
  rw [List.getElem?_take, List.getElem?_drop]
  by_cases hk : k < sp.getD (c + 1) 0 - sp.getD c 0
  · rw [if_pos hk, List.getElem?_range (by omega), List.getElem?_range' hk, Nat.one_mul]
  · rw [if_neg hk, List.getElem?_eq_none (by simp; simp at hk; omega)]

theorem superInv_wp {sp : List Nat} {ns n : Nat} (h : PtrOk sp ns n) {order : List Nat}
    (ho : ∀ c ∈ order, c < ns) :
    wp (superInv order n sp) fun inv => inv.length = n ∧
      ∀ c ∈ order, ∀ v ∈ superRows sp c, inv.getD v 0 = c := by
  unfold superInv
  have hmem : ∀ c v, v ∈ superRows sp c → sp.getD c 0 ≤ v ∧ v < sp.getD (c + 1) 0 := by
    intro c v hv
    unfold superRows at hv
    rw [List.mem_range'_1] at hv
    omega
  have key := forEach_wp (fun pre (inv : List Nat) => inv.length = n ∧
      ∀ c ∈ pre, ∀ v ∈ superRows sp c, inv.getD v 0 = c) (f := fun super inv => do
    let lo ← rd sp super
    let hi ← rd sp (super + 1)
    forRange lo hi (fun v inv => wr inv v super) inv) order [] (List.replicate n 0) ⟨by simp, by simp⟩ ?_
  · exact key
  · intro pre c post inv heq ⟨hl, hI⟩
    have hc : c < ns := ho c (by rw [List.nil_append] at heq; rw [heq]; simp)
    have hlen := h.len
    have hcn := h.dle (b := c + 1) hc
    rw [rd_getD 0 (by omega), ok_bind, rd_getD 0 (by omega), ok_bind]
    refine forRange_wp' (fun k (inv' : List Nat) => inv'.length = n ∧
      (∀ v, sp.getD c 0 ≤ v → v < k → inv'.getD v 0 = c) ∧
      ∀ v, ¬ (sp.getD c 0 ≤ v ∧ v < sp.getD (c + 1) 0) → inv'.getD v 0 = inv.getD v 0) (h.dmono hc)
      ⟨hl, fun v h1 h2 => by omega, fun _ _ => rfl⟩ ?_ ?_
    · rintro k inv' k1 k2 ⟨a1, a2, a3⟩
      rw [wr_eq (by omega), wp_ok]
      refine ⟨by simpa using a1, ?_, ?_⟩
      · intro v v1 v2
        rw [getD_set]
        split
        · rfl
        · next hc' => exact a2 v v1 (by
            rcases Nat.lt_or_ge v k with h3 | h3
            · exact h3
            · exact absurd ⟨by omega, by omega⟩ hc')
      · intro v hv
        rw [getD_set, if_neg (by rintro ⟨rfl, _⟩; exact hv ⟨k1, k2⟩), a3 v hv]
    · rintro inv' ⟨a1, a2, a3⟩
      refine ⟨a1, ?_⟩
      intro d hd v hv
      have hv' := hmem d v hv
      by_cases hdc : d = c
      · subst hdc
        exact a2 v hv'.1 hv'.2
      · rw [List.mem_append, List.mem_singleton] at hd
        have hd : d ∈ pre := hd.resolve_right hdc
        have hdn : d < ns := ho d (by rw [List.nil_append] at heq; rw [heq]; simp [hd])
        rw [a3 v, hI d hd v hv]
        rintro ⟨v1, v2⟩
        exact hdc (h.block_unique hdn hc hv'.1 hv'.2 v1 v2)

/-! ### The supernodes of one group -/

/-- The values that differ from their predecessor. -/
def dedupe : Int → List Nat → List Nat
  | _, [] => []
  | p, a :: l => if (a : Int) ≠ p then a :: dedupe a l else dedupe p l

theorem dedupe_same (c : Nat) : ∀ (k : Nat) (l : List Nat),
    dedupe c (List.replicate k c ++ l) = dedupe c l
  | 0, _ => rfl
  | k + 1, l => by
    rw [List.replicate_succ, List.cons_append, dedupe, if_neg (by simp), dedupe_same c k l]

theorem dedupe_blocks (size : Nat → Nat) : ∀ (cs : List Nat) (p : Int),
    (∀ c ∈ cs, 0 < size c) → cs.IsChain (· ≠ ·) → (∀ c, cs.head? = some c → (c : Int) ≠ p) →
    dedupe p (cs.flatMap fun c => List.replicate (size c) c) = cs
  | [], _, _, _, _ => rfl
  | c :: cs, p, hs, hc, hp => by
    have h0 := hs c (by simp)
    rw [List.flatMap_cons, show size c = (size c - 1) + 1 by omega, List.replicate_succ,
      List.cons_append, dedupe, if_pos (hp c rfl), dedupe_same,
      dedupe_blocks size cs c (fun d hd => hs d (by simp [hd])) (List.IsChain.tail hc) ?_]
    intro d hd
    cases cs with
    | nil => cases hd
    | cons e cs =>
      have : e = d := by simpa using hd
      subst this
      have := (List.isChain_cons_cons.1 hc).1
      omega

/-- One node of a group. -/
def convNode (inv : List Nat) (node : Nat) (t : Conv) : Res Conv := do
  let a ← rd inv node
  if (a : Int) ≠ t.prev then ok { t with nodes := t.nodes ++ [a], cnt := t.cnt + 1, prev := a }
  else ok t

theorem convNodes_wp (inv : List Nat) : ∀ (l : List Nat) (t : Conv), (∀ v ∈ l, v < inv.length) →
    wp (forEach l (convNode inv) t) fun t' => t'.part = t.part ∧
      t'.nodes = t.nodes ++ dedupe t.prev (l.map fun v => inv.getD v 0) ∧
      t'.cnt = t.cnt + (dedupe t.prev (l.map fun v => inv.getD v 0)).length
  | [], t, _ => by
    rw [forEach, wp_ok]
    exact ⟨rfl, by simp [dedupe], rfl⟩
  | v :: l, t, h => by
    rw [forEach, convNode, rd_getD 0 (h v (by simp)), ok_bind, List.map_cons, dedupe]
    split
    · rw [ok_bind]
      refine wp_mono (convNodes_wp inv l _ (fun w hw => h w (by simp [hw]))) ?_
      rintro t' ⟨a1, a2, a3⟩
      refine ⟨a1, by rw [a2]; simp, by rw [a3, List.length_cons]; dsimp only; omega⟩
    · rw [ok_bind]
      exact convNodes_wp inv l t (fun w hw => h w (by simp [hw]))

theorem convGroup_wp {gp gs inv : List Nat} {g : Nat} (h0 : g + 1 < gp.length)
    (hle : gp.getD g 0 ≤ gp.getD (g + 1) 0) (hgs : gp.getD (g + 1) 0 ≤ gs.length)
    (hinv : ∀ v ∈ slice gs (gp.getD g 0) (gp.getD (g + 1) 0), v < inv.length) (t : Conv) :
    wp (convGroup gp gs inv g t) fun t' => t'.part = t.part ∧
      t'.nodes = t.nodes ++
        dedupe (-1) ((slice gs (gp.getD g 0) (gp.getD (g + 1) 0)).map fun v => inv.getD v 0) ∧
      t'.cnt = t.cnt +
        (dedupe (-1) ((slice gs (gp.getD g 0) (gp.getD (g + 1) 0)).map fun v => inv.getD v 0)).length := by
  unfold convGroup
  rw [rd_getD 0 (by omega), ok_bind, rd_getD 0 (by omega), ok_bind]
  have hs := forRange_slice gs (convNode inv) { t with prev := -1 } hle hgs
  have := convNodes_wp inv _ { t with prev := -1 } hinv
  rw [← hs] at this
  exact this

/-! ### The whole schedule -/

/-- Group `j` of `G` is a sequence of whole, non-empty supernodes. -/
def WholeSupernodes (G : Grouping) (sp : List Nat) (ns j : Nat) (cs : List Nat) : Prop :=
  groupRows G.ptr G.set j = cs.flatMap (superRows sp) ∧ ∀ c ∈ cs, c < ns ∧ superRows sp c ≠ []

theorem isChain_of_nodup {sp : List Nat} : ∀ {cs : List Nat}, (cs.flatMap (superRows sp)).Nodup →
    (∀ c ∈ cs, superRows sp c ≠ []) → cs.IsChain (· ≠ ·)
  | [], _, _ => .nil
  | [_], _, _ => .singleton _
  | a :: b :: cs, hn, hne => by
    rw [List.flatMap_cons, List.nodup_append] at hn
    refine List.IsChain.cons_cons ?_ (isChain_of_nodup hn.2.1 (fun c hc => hne c (by simp [hc])))
    rintro rfl
    obtain ⟨v, hv⟩ := List.exists_mem_of_ne_nil _ (hne a (by simp))
    exact hn.2.2 v hv v (by simp [hv]) rfl

theorem dedupe_group {G : Grouping} {sp inv cs : List Nat} {ns j : Nat}
    (hn : (groupRows G.ptr G.set j).Nodup) (hw : WholeSupernodes G sp ns j cs)
    (hinv : ∀ c, c < ns → ∀ v ∈ superRows sp c, inv.getD v 0 = c) :
    dedupe (-1) ((groupRows G.ptr G.set j).map fun v => inv.getD v 0) = cs := by
  obtain ⟨h1, h2⟩ := hw
  rw [h1] at hn
  have hmap : (cs.flatMap (superRows sp)).map (fun v => inv.getD v 0) =
      cs.flatMap fun c => List.replicate (superRows sp c).length c := by
    rw [List.map_flatMap]
    have : ∀ c ∈ cs, (superRows sp c).map (fun v => inv.getD v 0) =
        List.replicate (superRows sp c).length c := by
      intro c hc
      rw [List.eq_replicate_iff]
      refine ⟨by simp, ?_⟩
      intro b hb
      obtain ⟨v, hv, rfl⟩ := List.mem_map.1 hb
      exact hinv c (h2 c hc).1 v hv
    exact List.flatMap_congr this
  rw [h1, hmap]
  refine dedupe_blocks _ cs (-1) ?_ (isChain_of_nodup hn (fun c hc => (h2 c hc).2)) (by omega)
  intro c hc
  exact List.length_pos_of_ne_nil (h2 c hc).2

/-- The state after `q` parts. -/
structure ConvAfter (s : Sched) (C : Nat → List Nat) (q : Nat) (t : Conv) : Prop where
  nodes : t.nodes = (s.nodes.take (s.partPtr.getD q 0)).flatMap C
  len : t.part.length = s.partPtr.length
  part : ∀ q', q' ≤ q → t.part.getD q' 0 = ((s.nodes.take (s.partPtr.getD q' 0)).flatMap C).length

theorem convPart_wp {G : Grouping} {n : Nat} (hG : G.Partition n) {sp inv : List Nat} {ns : Nat}
    (hil : inv.length = n) (hinv : ∀ c, c < ns → ∀ v ∈ superRows sp c, inv.getD v 0 = c)
    {C : Nat → List Nat} (hC : ∀ j, j < G.num → WholeSupernodes G sp ns j (C j))
    {s : Sched} {parts N : Nat} (h2 : PtrOk s.partPtr parts N) (hN : N ≤ s.nodes.length)
    (hmem : ∀ v ∈ s.nodes, v < G.num) {q : Nat} (hq : q < parts) {t : Conv} (h : ConvAfter s C q t) :
    wp (convPart s G.ptr G.set inv q t) (ConvAfter s C (q + 1)) := by
  unfold convPart
  have hlen := h2.len
  have hqn := h2.dle (b := q + 1) hq
  rw [rd_getD 0 (by omega), ok_bind, rd_getD 0 (by omega), ok_bind, wp_bind]
  refine forRange_wp' (fun k (t' : Conv) => t'.part = t.part ∧
    t'.nodes = (s.nodes.take k).flatMap C ∧
    t'.cnt + ((s.nodes.take (s.partPtr.getD q 0)).flatMap C).length =
      ((s.nodes.take k).flatMap C).length) (h2.dmono hq) ⟨rfl, h.nodes, by dsimp only; omega⟩ ?_ ?_
  · rintro k t' k1 k2 ⟨a1, a2, a3⟩
    have hkl : k < s.nodes.length := by omega
    rw [rd_eq hkl, ok_bind]
    have hj := hmem _ (List.getElem_mem hkl)
    have hb := hG.bounds hj
    have hpl := hG.ptr.len
    have hd := dedupe_group (j := s.nodes[k]) ?_ (hC _ hj) hinv
    · refine wp_mono (convGroup_wp (by omega) hb.1 hb.2 ?_ t') ?_
      · intro v hv
        rw [hil]; exact hG.mem_lt ⟨hj, hv⟩
      · rintro t'' ⟨b1, b2, b3⟩
        have e : slice G.set (G.ptr.getD s.nodes[k] 0) (G.ptr.getD (s.nodes[k] + 1) 0) =
          groupRows G.ptr G.set s.nodes[k] := rfl
        rw [e, hd] at b2 b3
        have ht : (s.nodes.take (k + 1)).flatMap C = (s.nodes.take k).flatMap C ++ C s.nodes[k] := by
          rw [List.take_add_one, List.getElem?_eq_getElem hkl, Option.toList_some, List.flatMap_append,
            List.flatMap_singleton]
        refine ⟨b1.trans a1, by rw [b2, a2, ht], by rw [b3, ht, List.length_append]; omega⟩
    · have hp := hG.nodes.nodup_iff.2 List.nodup_range
      rw [Grouping.rows_eq]
      have hb2 := hG.ptr.dle (b := s.nodes[k] + 1) hj
      have : slice G.set (G.ptr.getD s.nodes[k] 0) (G.ptr.getD (s.nodes[k] + 1) 0) =
          slice (G.set.take n) (G.ptr.getD s.nodes[k] 0) (G.ptr.getD (s.nodes[k] + 1) 0) := by
        unfold slice
        rw [List.drop_take, List.take_take, Nat.min_eq_left (by omega)]
      rw [this]
      exact hp.sublist ((List.take_sublist _ _).trans (List.drop_sublist _ _))
  · rintro t' ⟨a1, a2, a3⟩
    rw [a1, rd_getD 0 (by rw [h.len]; omega), ok_bind, wr_eq (by rw [h.len]; omega), ok_bind, wp_ok]
    refine ⟨a2, by simp [h.len], ?_⟩
    intro q' hq'
    dsimp only
    rw [getD_set]
    split
    · next he => rw [← he.1, h.part q (le_refl _)]; exact a3
    · next hne =>
      refine h.part q' ?_
      rcases Nat.lt_or_ge q q' with h3 | h3
      · exact absurd ⟨by omega, by rw [h.len]; omega⟩ hne
      · exact h3

theorem convertCN_wp {G : Grouping} {n : Nat} (hG : G.Partition n) {sp : List Nat} {ns : Nat}
    (hsp : PtrOk sp ns n) {order : List Nat} (ho : order.Perm (List.range ns))
    {C : Nat → List Nat} (hC : ∀ j, j < G.num → WholeSupernodes G sp ns j (C j))
    {s : Sched} {parts N : Nat} (h1 : PtrOk s.levelPtr s.levels parts) (h2 : PtrOk s.partPtr parts N)
    (hN : N ≤ s.nodes.length) (hmem : ∀ v ∈ s.nodes, v < G.num) :
    wp (convertCN order n G.ptr G.set sp s) fun s' => s'.levels = s.levels ∧ s'.levelPtr = s.levelPtr ∧
      s'.partPtr.length = s.partPtr.length ∧ s'.nodes = (s.nodes.take N).flatMap C ∧
      ∀ q, q ≤ parts → s'.partPtr.getD q 0 = ((s.nodes.take (s.partPtr.getD q 0)).flatMap C).length := by
  unfold convertCN
  rw [wp_bind]
  refine wp_mono (superInv_wp hsp (order := order) (fun c hc => List.mem_range.1 (ho.mem_iff.1 hc))) ?_
  rintro inv ⟨hil, hinv⟩
  have hinv' : ∀ c, c < ns → ∀ v ∈ superRows sp c, inv.getD v 0 = c := fun c hc =>
    hinv c (ho.mem_iff.2 (List.mem_range.2 hc))
  rw [wp_bind, forRange_blocks h1]
  refine forRange_wp' (fun q t => ConvAfter s C q t) (Nat.zero_le _) ?_ ?_ ?_
  · refine ⟨by rw [h2.d0]; rfl, rfl, ?_⟩
    intro q' hq'
    have : q' = 0 := by omega
    subst this
    rw [h2.d0]; rfl
  · intro q t _ hq h
    exact convPart_wp hG hil hinv' hC h2 hN hmem hq h
  · intro t h
    rw [wp_ok]
    refine ⟨rfl, rfl, h.len, ?_, h.part⟩
    rw [h.nodes, h2.dlast]

end Verif.Final
