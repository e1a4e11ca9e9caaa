import Verif.Proof.TreeHeight
import Verif.Proof.TreeCost
import Verif.Proof.TreeDag

/-!
# C65, C66: children, heights, costs and level sets of forests
-/

namespace Verif
open Res Verif.Tree

/-! ### C65 -/

/-- **C65.** `populate_children` gives the children of every node in ascending order, and their
number. -/
theorem C65_populate_children {n : Nat} {t : List Int} (hl : t.length = n) (hf : Forest n (parentOf t))
    {ptr no : List Nat} (hp : ptr.length = n + 1) (hn : no.length = n) :
    ∃ ptr' no' cnt, populateChildren n t ptr no (List.replicate n 0) = ok (ptr', no', cnt) ∧
      ptr'.length = n + 1 ∧ no'.length = n ∧ cnt.length = n ∧
      ∀ p, p < n →
        slice no' (ptr'.getD p 0) (ptr'.getD (p + 1) 0)
          = (List.range n).filter (fun c => decide (parentOf t c = some p)) ∧
        cnt.getD p 0 = ((List.range n).filter (fun c => decide (parentOf t c = some p))).length := by
  obtain ⟨⟨ptr', no', cnt⟩, h, h1, h2, h3⟩ := wp_iff.1 (populateChildren_wp hl hf hp hn)
  exact ⟨ptr', no', cnt, h, h1.ptrLen, h1.noLen, h2, fun p hp => ⟨h1.block p hp, h3 p hp⟩⟩

/-- **C65.** Without weights `get_node_depth` is the distance from the root, and the three height
functions return the largest distance. -/
theorem C65_heights {n : Nat} {t : List Int} (hl : t.length = n) (hf : Forest n (parentOf t))
    {nChild : List Nat} (hc : nChild.length = n) (hcnt : ∀ v, v < n → nChild.getD v 0
      = ((List.range n).filter (fun c => decide (parentOf t c = some v))).length) :
    (∀ v, v < n → ∃ d : Nat, nodeDepth n t none v = ok (d : Int) ∧ Depth (parentOf t) v d) ∧
    ∃ h : Nat, heightBrute n t none = ok (h : Int) ∧ heightLeaves n t nChild none = ok (h : Int) ∧
      heightEff n t nChild none = ok (h : Int) ∧
      (∀ v d, v < n → Depth (parentOf t) v d → d ≤ h) ∧
      (0 < n → ∃ v, v < n ∧ Depth (parentOf t) v h) := by
  have hpos : ∀ v, v < n → 0 ≤ wtOf none v := fun _ _ => by simp [wtOf]
  have hone : wtOf none = fun _ => 1 := by funext v; rfl
  refine ⟨?_, ?_⟩
  · intro v hv
    obtain ⟨d, h1, h2⟩ := wp_iff.1 (nodeDepth_wp hl hf (w := none) trivial hv)
    have h0 : own none v = 0 := rfl
    rw [h0, Int.sub_zero] at h2
    obtain ⟨k, rfl⟩ := Int.eq_ofNat_of_zero_le (h2.nonneg hf hpos hv)
    rw [hone] at h2
    exact ⟨k, h1, above_one.1 h2⟩
  · obtain ⟨a, a1, a2⟩ := wp_iff.1 (heightBrute_wp hl hf (w := none) trivial)
    obtain ⟨b, b1, b2⟩ := wp_iff.1 (heightLeaves_wp hl hf (w := none) trivial hc hcnt)
    obtain ⟨c, c1, c2⟩ := wp_iff.1 (heightEff_wp hl hf (w := none) trivial hpos hc hcnt)
    obtain ⟨k, rfl⟩ := Int.eq_ofNat_of_zero_le a2.1
    have key : ∀ d, (∃ v, v < n ∧ Above (parentOf t) (wtOf none) v d) →
        ∃ v e, v < n ∧ Leaf n t v ∧ Above (parentOf t) (wtOf none) v e ∧ d ≤ e := by
      rintro d ⟨v, hv, hA⟩
      obtain ⟨u, r, g1, g2, g3, g4, _⟩ := leaf_below hf hpos v hv hA
      exact ⟨u, r, g1, g2, g3, g4⟩
    have hown : ∀ v (d : Int), d - own none v = d := fun v d => by simp [own]
    have hac : (k : Int) = c := by
      apply Int.le_antisymm
      · rcases a2.2.2 with h | ⟨v, hv, hA⟩
        · have := c2.1; omega
        · rw [hown] at hA
          obtain ⟨u, e, g1, g2, g3, g4⟩ := key _ ⟨v, hv, hA⟩
          exact g4.trans (c2.2.1 _ ⟨u, g1, g2, g3⟩)
      · rcases c2.2.2 with h | ⟨v, hv, _, hA⟩
        · have := a2.1; omega
        · exact a2.2.1 _ ⟨v, hv, by rw [hown]; exact hA⟩
    have hbc : b = c := by
      refine LargestOr0.unique (P := fun d => ∃ v, v < n ∧ Leaf n t v ∧
        Above (parentOf t) (wtOf none) v d) ?_ c2
      have e : (fun d => ∃ v, v < n ∧ Leaf n t v ∧ Above (parentOf t) (wtOf none) v (d - own none v))
          = fun d => ∃ v, v < n ∧ Leaf n t v ∧ Above (parentOf t) (wtOf none) v d := by
        funext d; simp only [hown]
      rw [e] at b2
      exact b2
    refine ⟨k, a1, by rw [hac, ← hbc]; exact b1, by rw [hac]; exact c1, ?_, ?_⟩
    · intro v d hv hd
      have := a2.2.1 (d : Int) ⟨v, hv, by rw [hown, hone]; exact above_one.2 hd⟩
      omega
    · intro hn
      rcases a2.2.2 with h | ⟨v, hv, hA⟩
      · obtain rfl : k = 0 := by omega
        obtain ⟨s, hs⟩ := Above.exists (wt := wtOf none) hf 0 hn
        have h0 := hs.nonneg hf hpos hn
        have := a2.2.1 s ⟨0, hn, by rw [hown]; exact hs⟩
        obtain rfl : s = ((0 : Nat) : Int) := by omega
        rw [hone] at hs
        exact ⟨0, hn, above_one.1 hs⟩
      · rw [hown, hone] at hA
        exact ⟨v, hv, above_one.1 hA⟩

/-- **C65**, with weights: `get_tree_height_bruteforce` and `get_tree_height` return the largest
weight of a path to a root, the first node of the path included. -/
theorem C65_weighted_heights {n : Nat} {t : List Int} (hl : t.length = n) (hf : Forest n (parentOf t))
    {w : List Int} (hw : w.length = n) (hpos : ∀ v, v < n → 0 ≤ w.getD v 0)
    {nChild : List Nat} (hc : nChild.length = n) (hcnt : ∀ v, v < n → nChild.getD v 0
      = ((List.range n).filter (fun c => decide (parentOf t c = some v))).length) :
    ∃ h, heightBrute n t (some w) = ok h ∧ heightLeaves n t nChild (some w) = ok h ∧
      LargestOr0 (fun d => ∃ v s, v < n ∧ Above (parentOf t) (fun v => w.getD v 0) v s ∧
        d = w.getD v 0 + s) h := by
  obtain ⟨a, a1, a2⟩ := wp_iff.1 (heightBrute_wp hl hf (w := some w) hw)
  obtain ⟨b, b1, b2⟩ := wp_iff.1 (heightLeaves_wp hl hf (w := some w) hw hc hcnt)
  have hwt : wtOf (some w) = fun v => w.getD v 0 := rfl
  have hown : ∀ v, own (some w) v = w.getD v 0 := fun _ => rfl
  have hab : a = b := by
    apply Int.le_antisymm
    · rcases a2.2.2 with h | ⟨v, hv, hA⟩
      · have := b2.1; omega
      · rw [hown, hwt] at hA
        obtain ⟨u, r, g1, g2, g3, g4, g5⟩ := leaf_below hf hpos v hv hA
        have h1 := hpos u g1
        have h2 := b2.2.1 (r + w.getD u 0) ⟨u, g1, g2, by
          rw [hown, hwt, Int.add_sub_cancel]; exact g3⟩
        rcases g5 with rfl | g5
        · have := g3.unique hA
          omega
        · omega
    · rcases b2.2.2 with h | ⟨v, hv, _, hA⟩
      · have := a2.1; omega
      · exact a2.2.1 _ ⟨v, hv, hA⟩
  subst hab
  refine ⟨a, a1, b1, a2.1, ?_, ?_⟩
  · rintro d ⟨v, s, hv, hA, rfl⟩
    refine a2.2.1 _ ⟨v, hv, ?_⟩
    rw [hown, hwt, Int.add_comm, Int.add_sub_cancel]
    exact hA
  · rcases a2.2.2 with h | ⟨v, hv, hA⟩
    · exact .inl h
    · exact .inr ⟨v, _, hv, hA, by rw [hown]; omega⟩

/-- **C65**, what `get_tree_height_efficient` returns with weights: the largest weight of a path
without its first node. -/
theorem C65_weighted_efficient_height {n : Nat} {t : List Int} (hl : t.length = n)
    (hf : Forest n (parentOf t)) {w : List Int} (hw : w.length = n) (hpos : ∀ v, v < n → 0 ≤ w.getD v 0)
    {nChild : List Nat} (hc : nChild.length = n) (hcnt : ∀ v, v < n → nChild.getD v 0
      = ((List.range n).filter (fun c => decide (parentOf t c = some v))).length) :
    ∃ h, heightEff n t nChild (some w) = ok h ∧
      LargestOr0 (fun d => ∃ v, v < n ∧ Above (parentOf t) (fun v => w.getD v 0) v d) h := by
  obtain ⟨c, c1, c2⟩ := wp_iff.1 (heightEff_wp hl hf (w := some w) hw hpos hc hcnt)
  refine ⟨c, c1, c2.1, ?_, ?_⟩
  · rintro d ⟨v, hv, hA⟩
    obtain ⟨u, r, g1, g2, g3, g4, _⟩ := leaf_below hf hpos v hv hA
    exact g4.trans (c2.2.1 _ ⟨u, g1, g2, g3⟩)
  · rcases c2.2.2 with h | ⟨v, hv, _, hA⟩
    · exact .inl h
    · exact .inr ⟨v, hv, hA⟩

/-- **C65**, finding: with weights `get_tree_height_efficient` and `get_tree_height` disagree (a path
with the weights 5, 1). -/
theorem C65_efficient_height_differs :
    heightLeaves 2 [1, -1] [0, 1] (some [5, 1]) = ok 6 ∧
    heightEff 2 [1, -1] [0, 1] (some [5, 1]) = ok 1 := by decide

/-- **C65.** `compute_subtree_cost` returns the sum of the weights of every subtree. -/
theorem C65_subtree_cost {K : Type} [AddCommMonoid K] {n : Nat} {t : List Int} (hl : t.length = n)
    (hf : Forest n (parentOf t)) {w : List K} (hw : w.length = n) :
    ∃ c, subtreeCost n t w = ok c ∧ c.length = n ∧
      ∀ v, v < n → c.getD v 0 = subtreeSum n (parentOf t) w v := by
  obtain ⟨c, h1, h2, h3⟩ := wp_iff.1 (subtreeCost_wp hl hf hw)
  exact ⟨c, h1, h2, h3⟩

/-- A forest with the roots 3 and 6. -/
example : Forest 7 (parentOf [3, 2, 3, -1, 6, 6, -1]) := by
  have h : ∀ j, j < 7 → ∀ p ∈ (parentOf [3, 2, 3, -1, 6, 6, -1] j).toList, j < p ∧ p < 7 := by decide
  exact fun j p hj hp => h j hj p (by rw [hp]; simp)

/-- Its children, heights and costs. -/
example : populateChildren 7 [3, 2, 3, -1, 6, 6, -1] (List.replicate 8 9) (List.replicate 7 9)
      (List.replicate 7 0)
    = ok ([0, 0, 0, 1, 3, 3, 3, 5], [1, 0, 2, 4, 5, 9, 9], [0, 0, 1, 2, 0, 0, 2]) ∧
    heightEff 7 [3, 2, 3, -1, 6, 6, -1] [0, 0, 1, 2, 0, 0, 2] none = ok 2 ∧
    subtreeCost 7 [3, 2, 3, -1, 6, 6, -1] [1, 2, 3, 4, 5, 6, 7] = ok [1, 2, 5, 10, 5, 6, 18] := by decide

/-! ### C66 -/

/-- **C66.** `build_level_set_tree_efficient`: level `k` consists of the nodes of height `k`, in
ascending order, and the number of levels is the largest height plus one. -/
theorem C66_level_set_tree {n : Nat} {t : List Int} (hl : t.length = n) (hf : Forest n (parentOf t))
    (hn : 2 ≤ n) {nChild : List Nat} (hc : nChild.length = n) (hcnt : ∀ v, v < n → nChild.getD v 0
      = ((List.range n).filter (fun c => decide (parentOf t c = some v))).length) (debug : Bool) :
    ∃ L ptr set n2l, levelSetEff debug n t nChild = ok (L, ptr, set, n2l) ∧
      set.Perm (List.range n) ∧ ptr.getD 0 0 = 0 ∧ ptr.getD L 0 = n ∧
      (∀ v, v < n → IsHeight n (parentOf t) v (n2l.getD v 0) ∧ n2l.getD v 0 < L) ∧
      (∃ v, v < n ∧ IsHeight n (parentOf t) v (L - 1)) ∧
      ∀ k, k < L → slice set (ptr.getD k 0) (ptr.getD (k + 1) 0)
        = (List.range n).filter (fun v => decide (n2l.getD v 0 = k)) := by
  obtain ⟨⟨L, ptr, set, n2l⟩, h, h'⟩ := wp_iff.1 (levelSetEff_wp hl hf (by omega) hc hcnt debug)
  dsimp only at h'
  refine ⟨L, ptr, set, n2l, h, h'.perm, ?_, ?_, fun v hv => ⟨h'.height v hv, h'.lt v hv⟩, ?_, h'.block⟩
  · rw [h'.start 0 (Nat.zero_le _), below_zero]
  · rw [h'.start L (Nat.le_refl _), below_all, List.length_range]
    intro v hv
    exact h'.lt v (List.mem_range.1 hv)
  · obtain ⟨v, hv, h1⟩ := h'.top
    refine ⟨v, hv, ?_⟩
    rw [← h1, Nat.add_sub_cancel]
    exact h'.height v hv

/-- **C66.** So every node comes in a later level than its children. -/
theorem C66_children_earlier {n : Nat} {t : List Int} (hl : t.length = n) (hf : Forest n (parentOf t))
    (hn : 2 ≤ n) {nChild : List Nat} (hc : nChild.length = n) (hcnt : ∀ v, v < n → nChild.getD v 0
      = ((List.range n).filter (fun c => decide (parentOf t c = some v))).length) (debug : Bool)
    {L : Nat} {ptr set n2l : List Nat} (h : levelSetEff debug n t nChild = ok (L, ptr, set, n2l))
    {c p : Nat} (hcp : ChildOf n (parentOf t) c p) : n2l.getD c 0 < n2l.getD p 0 := by
  obtain ⟨L', ptr', set', n2l', h', _, _, _, g, _⟩ := C66_level_set_tree hl hf hn hc hcnt debug
  rw [h] at h'
  cases h'
  have hp := (hf c p hcp.1 hcp.2).2
  exact (g p hp).1.2 _ (.snoc (g c hcp.1).1.1 hcp)

/-- **C66**, finding: with a single node `level_cnt[1]` is written in an array of one element; without
nodes the access is out of bounds as well. -/
theorem C66_single_node_undefined (debug : Bool) :
    levelSetEff debug 1 [-1] [0] = ub ∧ levelSetEff debug 0 [] [] = ub := by
  cases debug <;> decide

/-- The level set of the forest above. -/
example : levelSetEff true 7 [3, 2, 3, -1, 6, 6, -1] [0, 0, 1, 2, 0, 0, 2]
    = ok (3, [0, 4, 6, 7, 0, 0, 0, 0], [0, 1, 4, 5, 2, 6, 3], [0, 0, 1, 2, 0, 0, 1]) := by decide

end Verif
