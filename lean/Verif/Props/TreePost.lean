import Verif.Proof.TreePost
import Verif.Props.Etree

/-!
# C43: post order of a forest
-/

namespace Verif
open Res TreePost Etree

/-- **C43.** Without weights `tree_post_order` returns `n`, and the first `n` elements of `Post` are a
post order of the forest with siblings in ascending order. -/
theorem C43_tree_post_order {debug : Bool} {n : Nat} (hn : 0 < n) {parent : List (Option Nat)}
    (hlen : n ≤ parent.length) (hf : Forest n (fun j => parent.getD j none)) {post : List Nat}
    (hpost : n ≤ post.length) :
    ∃ post', treePostOrder debug n parent none post = ok (n, post') ∧ post'.length = post.length ∧
      IsPostOrder n (fun j => parent.getD j none) (· < ·) (post'.take n) := by
  have hk := kids_range hf
  obtain ⟨⟨k, out⟩, h1, h2, h3, h4⟩ := wp_iff.1 (treePostOrder_wp (debug := debug) hn hlen (weight := none)
    (post := post) rfl hpost hk (linkPlain_wp hlen hf (linkInv_init n _)))
  dsimp only at h2 h3 h4
  subst h2
  refine ⟨out, h1, h3, ?_⟩
  rw [h4]
  refine isPostOrder hk ?_
  intro c d p hc hd hcd
  refine sublist_of_pairwise (List.Pairwise.filter _ List.pairwise_lt_range) ((hk.mem p c).2 hc)
    ((hk.mem p d).2 hd) (by omega) (by omega)

/-- **C43**, with weights: siblings are ordered by weight. -/
theorem C43_tree_post_order_weight {debug : Bool} {n : Nat} (hn : 0 < n) {parent : List (Option Nat)}
    (hlen : n ≤ parent.length) (hf : Forest n (fun j => parent.getD j none)) {weight : List Int}
    (hw : n ≤ weight.length) {post : List Nat} (hpost : n ≤ post.length) :
    ∃ post', treePostOrder debug n parent (some weight) post = ok (n, post') ∧
      post'.length = post.length ∧
      IsPostOrder n (fun j => parent.getD j none) (ByWeight n (fun j => weight.getD j 0))
        (post'.take n) := by
  have hk := kids_weighted (wt := fun j => weight.getD j 0) hf
  obtain ⟨⟨k, out⟩, h1, h2, h3, h4⟩ := wp_iff.1 (treePostOrder_wp (debug := debug) hn hlen
    (weight := some weight) (post := post) rfl hpost hk (linkWeighted_wp hlen hw hf (linkInv_init n _)))
  dsimp only at h2 h3 h4
  subst h2
  refine ⟨out, h1, h3, ?_⟩
  rw [h4]
  refine isPostOrder hk ?_
  intro c d p hc hd hcd
  refine sublist_of_pairwise (List.Pairwise.filter _ (pairwise_weighted (n := k)
    (par := fun j => parent.getD j none) (wt := fun j => weight.getD j 0))) ((hk.mem p c).2 hc)
    ((hk.mem p d).2 hd) ?_ ?_
  · rintro rfl
    unfold ByWeight at hcd
    omega
  · have := hc.1
    unfold ByWeight at hcd
    unfold clamp
    dsimp only at hcd
    omega

/-- **C43.** In particular every node comes after its children, wherever the two are in the list. -/
theorem C43_child_first {n : Nat} {par : Nat → Option Nat} {before : Nat → Nat → Prop} {l : List Nat}
    (h : IsPostOrder n par before l) (hf : Forest n par) {c p : Nat} (hc : ChildOf n par c p) {a b : Nat}
    (ha : l[a]? = some c) (hb : l[b]? = some p) : a < b := by
  obtain ⟨s, D, t, rfl, hD⟩ := h.block p (hf c p hc.1 hc.2).2
  have hnd := h.perm.nodup_iff.2 List.nodup_range
  have hcD := (hD c).2 (.single hc)
  obtain ⟨i, hi, hic⟩ := List.mem_iff_getElem.1 hcD
  have e1 : (s ++ D ++ p :: t)[s.length + i]? = some c := by
    rw [List.append_assoc, List.getElem?_append_right (by omega), Nat.add_sub_cancel_left,
      List.getElem?_append_left hi, List.getElem?_eq_getElem hi, hic]
  have e2 : (s ++ D ++ p :: t)[s.length + D.length]? = some p := by
    rw [List.getElem?_append_right (by simp)]; simp
  have ha' := (List.getElem?_eq_some_iff.1 ha).1
  have hb' := (List.getElem?_eq_some_iff.1 hb).1
  have i1 : a = s.length + i := (List.getElem?_inj ha' hnd).1 (ha.trans e1.symm)
  have i2 : b = s.length + D.length := (List.getElem?_inj hb' hnd).1 (hb.trans e2.symm)
  omega

/-- **C43**, applied to C32: the elimination tree computed by `compute_etree` is such a forest. -/
theorem C43_etree_post_order {V : Type} {A : Sp V} (hA : A.PatWF) (hsq : A.rows = A.cols) {stype : Int}
    (hs : 0 < stype) (hn : 0 < A.cols) {parent : List (Option Nat)} (hp : A.cols ≤ parent.length)
    {debug : Bool} {post : List Nat} (hpost : A.cols ≤ post.length) :
    ∃ par post', computeEtree stype A.rows A.cols A.p A.i parent = ok (true, par) ∧
      treePostOrder debug A.cols par none post = ok (A.cols, post') ∧
      IsPostOrder A.cols (fun j => par.getD j none) (· < ·) (post'.take A.cols) := by
  obtain ⟨par, h1, h2, h3, _⟩ := C32_compute_etree hA hsq hs hp
  have hf : Forest A.cols (fun j => par.getD j none) := by
    intro j p hj hjp
    have := h2 j hj
    dsimp only at hjp
    rw [hjp] at this
    refine ⟨?_, this.1⟩
    cases this.2.1 <;> assumption
  obtain ⟨post', h4, _, h5⟩ := C43_tree_post_order (debug := debug) hn (by omega) hf hpost
  exact ⟨par, post', h1, h4, h5⟩

/-- A forest with two roots, `3` and `5`; the children of `5` are `2` and `4`. -/
def exParent : List (Option Nat) := [some 3, some 3, some 5, none, some 5, none]

example : Forest 6 (fun j => exParent.getD j none) := by
  intro j p hj hp
  unfold exParent at hp
  interval_cases j <;> simp at hp <;> omega

example : treePostOrder true 6 exParent none (List.replicate 7 9) = ok (6, [0, 1, 3, 2, 4, 5, 9]) := by
  decide

example : treePostOrder true 6 exParent (some [7, -2, 3, 0, 1, 0]) (List.replicate 6 9) =
    ok (6, [1, 0, 3, 4, 2, 5]) := by
  decide

/-- The empty forest violates the assertion `s > 0`. -/
theorem C43_empty_asserts : treePostOrder true 0 [] none [] = exn := by decide

end Verif
