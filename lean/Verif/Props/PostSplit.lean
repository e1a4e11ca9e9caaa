import Verif.Proof.PostSplit2

/-!
# C67: splitting a window of a forest into its trees
-/

namespace Verif
open Res Verif.Tree Verif.Split

/-- **C67.** `post_order_spliting`, called after `populate_children` for a window of a forest: a node
with the entry `-2` is outside of the window, the parents of the other nodes are in the window.  The
call terminates without an access outside of the arrays.  Its parts contain every node of the window
exactly once.  Every part is one whole tree of the window, children in front of their parents.  The
cost of a part is the sum of the costs of its nodes, added in the order of the part.  The label of a
node is the number of its part. -/
theorem C67_post_order_splitting {K : Type} [Add K] {n : Nat} {t : List Int} (hl : t.length = n)
    (hf : Forest n (parentOf t))
    (hcl : ∀ c p, ChildOf n (parentOf t) c p → t.getD p (-1) ≠ -2)
    {ptr0 no0 ptr no cnt : List Nat} (hp0 : ptr0.length = n + 1) (hn0 : no0.length = n)
    (hpop : populateChildren n t ptr0 no0 (List.replicate n 0) = ok (ptr, no, cnt))
    {debug : Bool} {num : Nat} (hnum : num ≠ 0) (cost start : Nat → K) {lab : List Int} (hlab : lab.length = n) :
    ∃ parts out lab', postOrderSplit debug n t ((List.range n).map cost) ptr no (cnt.map Int.ofNat) num
        ((List.range n).map start) lab = ok (parts, out, lab') ∧
      parts.flatten.Perm ((List.range n).filter (fun v => decide (t.getD v (-1) ≠ -2))) ∧
      (∀ q ∈ parts, IsTree (parentOf t) q) ∧
      (∀ q ∈ parts, ∀ c p, ChildOf n (parentOf t) c p → (c ∈ q ↔ p ∈ q)) ∧
      (∀ (i : Nat) (q : List Nat), parts[i]? = some q → out[i]? = some (q.foldl (fun a x => a + cost x) (start i))) ∧
      (∀ (i : Nat) (q : List Nat), parts[i]? = some q → ∀ x ∈ q, lab'.getD x (-1) = (i : Int)) := by
  obtain ⟨r, hr, h1, h2, h3⟩ := wp_iff.1 (populateChildren_wp hl hf hp0 hn0)
  rw [hpop] at hr
  cases hr
  dsimp only at h1 h2 h3
  have hcl' : Closed n t := fun c p hc => ⟨(hf c p hc.1 hc.2).2, hcl c p hc⟩
  obtain ⟨⟨parts, out, lab'⟩, h, a1, a2, a3, a4⟩ := wp_iff.1 (postOrderSplit_wp (debug := debug) hl hf hcl'
    (wc := cost) (oc := start) rfl h1 (nChild := cnt.map Int.ofNat) ⟨by simpa using h2, by
      intro v hv
      rw [← h3 v hv]
      have : v < cnt.length := by omega
      rw [List.getD_eq_getElem?_getD, List.getD_eq_getElem?_getD, List.getElem?_map,
        List.getElem?_eq_getElem this]
      rfl⟩ hnum rfl hlab)
  dsimp only at a1 a2 a3 a4
  have hlen : parts.length ≤ n := by
    have g1 := length_le_flatten (fun q hq => (a1.trees q hq).ne_nil)
    have g2 := length_le_of_nodup a1.nodup (fun x hx => ((a1.mem x).1 hx).1)
    omega
  refine ⟨parts, out, lab', h, ?_, a1.trees, fun q hq c p hc => a1.closed hq hc, ?_, a4.2.1⟩
  · rw [List.perm_ext_iff_of_nodup a1.nodup (List.nodup_range.filter _)]
    intro x
    rw [a1.mem, List.mem_filter, List.mem_range, decide_eq_true_eq]
    rfl
  · intro i q hq
    have hi : i < parts.length := (List.getElem?_eq_some_iff.1 hq).1
    have := a2 i (by omega)
    rwa [List.getD_eq_getElem?_getD, hq] at this

/-- A window of seven nodes, two of them outside: the trees `2, 0, 1, 3` with the root 3 and `6`,
with their costs. -/
example : ∃ ptr no cnt, populateChildren 7 [3, 2, 3, -1, -2, -2, -1] (List.replicate 8 0) (List.replicate 7 0)
      (List.replicate 7 0) = ok (ptr, no, cnt) ∧
    postOrderSplit true 7 [3, 2, 3, -1, -2, -2, -1] [1, 10, 100, 1000, 7, 7, 5] ptr no
      (cnt.map Int.ofNat) 1 (List.replicate 7 0) (List.replicate 7 0)
      = ok ([[0, 1, 2, 3], [6]], [1111, 5, 0, 0, 0, 0, 0], [0, 0, 0, 0, 0, 0, 1]) := by
  refine ⟨_, _, _, rfl, ?_⟩
  decide

/-- The hypotheses are met by this window. -/
example : Forest 7 (parentOf [3, 2, 3, -1, -2, -2, -1]) ∧
    ∀ c p, ChildOf 7 (parentOf [3, 2, 3, -1, -2, -2, -1]) c p →
      ([3, 2, 3, -1, -2, -2, -1] : List Int).getD p (-1) ≠ -2 := by
  have h : ∀ j, j < 7 → ∀ p ∈ (parentOf [3, 2, 3, -1, -2, -2, -1] j).toList, (j < p ∧ p < 7) ∧
      ([3, 2, 3, -1, -2, -2, -1] : List Int).getD p (-1) ≠ -2 := by decide
  exact ⟨fun j p hj hp => (h j hj p (by rw [hp]; simp)).1, fun c p hc => (h c hc.1 p (by rw [hc.2]; simp)).2⟩

end Verif
