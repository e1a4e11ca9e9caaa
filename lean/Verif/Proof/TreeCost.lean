import Verif.Proof.TreeLevel
import Verif.Spec.TreeSum
import Mathlib.Algebra.BigOperators.Group.Finset.Piecewise

/-! # Costs of subtrees -/

namespace Verif

variable {n : Nat} {par : Nat → Option Nat}

theorem below_le (hf : Forest n par) {x v : Nat} (h : Relation.ReflTransGen (ChildOf n par) x v) : x ≤ v := by
  induction h with
  | refl => exact Nat.le_refl _
  | tail _ hc ih =>
    have := hf _ _ hc.1 hc.2
    omega

/-- Of two ancestors one is an ancestor of the other. -/
theorem ancestors_linear {x a b : Nat} (ha : Relation.ReflTransGen (ChildOf n par) x a)
    (hb : Relation.ReflTransGen (ChildOf n par) x b) :
    Relation.ReflTransGen (ChildOf n par) a b ∨ Relation.ReflTransGen (ChildOf n par) b a := by
  refine Relation.ReflTransGen.total_of_right_unique ?_ ha hb
  intro a b c h1 h2
  have := h1.2.symm.trans h2.2
  simpa using this

theorem child_unique (hf : Forest n par) {x c d v : Nat} (hc : ChildOf n par c v) (hd : ChildOf n par d v)
    (h1 : Relation.ReflTransGen (ChildOf n par) x c) (h2 : Relation.ReflTransGen (ChildOf n par) x d) :
    c = d := by
  have key : ∀ c d, ChildOf n par c v → ChildOf n par d v → Relation.ReflTransGen (ChildOf n par) c d → c = d := by
    intro c d hc hd h
    rcases h.cases_head with rfl | ⟨e, he, h'⟩
    · rfl
    · have h3 : e = v := by simpa using he.2.symm.trans hc.2
      subst h3
      have h4 := below_le hf h'
      have h5 := hf _ _ hd.1 hd.2
      omega
  rcases ancestors_linear h1 h2 with h | h
  · exact key c d hc hd h
  · exact (key d c hd hc h).symm

end Verif

namespace Verif.Tree
open Res Relation

variable {n : Nat} {t : List Int} {K : Type} [AddCommMonoid K]

theorem kids_nodup (k p : Nat) : (kids k t p).Nodup := List.nodup_range.filter _

open Classical in
theorem subtreeSum_eq (hf : Forest n (parentOf t)) (w : List K) {v : Nat} (hv : v < n) :
    subtreeSum n (parentOf t) w v
      = w.getD v 0 + ∑ c ∈ Finset.range n with parentOf t c = some v, subtreeSum n (parentOf t) w c := by
  unfold subtreeSum
  rw [← Finset.sum_filter_add_sum_filter_not (Finset.filter _ _) (fun x => x = v)]
  congr 1
  · have : (Finset.filter (fun x => x = v) (Finset.filter
        (fun x => ReflTransGen (ChildOf n (parentOf t)) x v) (Finset.range n))) = {v} := by
      ext x
      simp only [Finset.mem_filter, Finset.mem_range, Finset.mem_singleton]
      constructor
      · exact fun h => h.2
      · rintro rfl; exact ⟨⟨hv, .refl⟩, rfl⟩
    rw [this, Finset.sum_singleton]
  · rw [← Finset.sum_biUnion]
    · apply Finset.sum_congr _ (fun _ _ => rfl)
      ext x
      simp only [Finset.mem_filter, Finset.mem_range, Finset.mem_biUnion]
      constructor
      · rintro ⟨⟨h1, h2⟩, h3⟩
        rcases h2.cases_tail with h | ⟨c, h4, h5⟩
        · exact absurd h.symm h3
        · exact ⟨c, ⟨h5.1, h5.2⟩, h1, h4⟩
      · rintro ⟨c, ⟨h1, h2⟩, h3, h4⟩
        refine ⟨⟨h3, h4.tail ⟨h1, h2⟩⟩, ?_⟩
        have h5 := below_le hf h4
        have h6 := hf c v h1 h2
        omega
    · intro c hc d hd hne
      simp only [Finset.coe_filter, Finset.mem_range, Set.mem_ofPred_eq] at hc hd
      rw [Function.onFun, Finset.disjoint_left]
      intro x hx hx'
      simp only [Finset.mem_filter] at hx hx'
      exact hne (child_unique hf hc hd hx.2 hx'.2)

theorem subtreeCost_wp (hl : t.length = n) (hf : Forest n (parentOf t)) {w : List K} (hw : w.length = n) :
    wp (subtreeCost n t w) (fun c => c.length = n ∧
      ∀ v, v < n → c.getD v 0 = subtreeSum n (parentOf t) w v) := by
  classical
  unfold subtreeCost
  rw [wp_bind]
  refine wp_mono (forRange_wp' (fun k (c : List K) => c = w.take k) (Nat.zero_le n) (by simp) ?_
    (fun _ h => h)) ?_
  · rintro k c _ hk rfl
    rw [rd_getD 0 (by omega), ok_bind, wp_ok, List.take_add_one, List.getD_eq_getElem?_getD,
      List.getElem?_eq_getElem (by omega)]
    rfl
  rintro c rfl
  rw [List.take_of_length_le (by omega)]
  refine forRange_wp' (fun k (c : List K) => c.length = n ∧ ∀ v, v < n → c.getD v 0
    = w.getD v 0 + ∑ c ∈ Finset.range k with parentOf t c = some v, subtreeSum n (parentOf t) w c)
    (Nat.zero_le n) ?_ ?_ ?_
  · exact ⟨hw, fun v hv => by simp⟩
  · rintro k c _ hk ⟨h1, h2⟩
    have hfull : c.getD k 0 = subtreeSum n (parentOf t) w k := by
      rw [h2 k hk, subtreeSum_eq hf w hk]
      congr 1
      apply Finset.sum_congr _ (fun _ _ => rfl)
      ext x
      simp only [Finset.mem_filter, Finset.mem_range]
      constructor
      · rintro ⟨h3, h4⟩; exact ⟨by omega, h4⟩
      · rintro ⟨h3, h4⟩; exact ⟨(hf x k h3 h4).1, h4⟩
    unfold costStep
    rw [rd_tree (by omega), ok_bind]
    rcases parent_cases (t := t) k with ⟨e1, e2⟩ | ⟨p, e1, e2⟩
    · rw [if_neg (by omega), wp_ok]
      refine ⟨h1, fun v hv => ?_⟩
      rw [h2 v hv, Finset.range_add_one, Finset.filter_insert, if_neg (by rw [e2]; simp)]
    · have hp := hf k p hk e2
      rw [e1, if_pos (by omega), rdZ_nat, rd_getD 0 (by omega), ok_bind, rd_getD 0 (by omega), ok_bind,
        wrZ_nat, wr_eq (by omega), wp_ok]
      refine ⟨by simpa using h1, fun v hv => ?_⟩
      rw [Finset.range_add_one, Finset.filter_insert, getD_set]
      by_cases hvp : v = p
      · subst hvp
        rw [if_pos ⟨rfl, by omega⟩, if_pos e2, Finset.sum_insert (by simp), h2 v hv, hfull, add_assoc,
          add_comm (subtreeSum n (parentOf t) w k)]
      · have : ¬ parentOf t k = some v := by rw [e2]; simpa using fun h => hvp h.symm
        rw [if_neg (by omega), if_neg this, h2 v hv]
  · rintro c ⟨h1, h2⟩
    exact ⟨h1, fun v hv => by rw [h2 v hv, subtreeSum_eq hf w hv]⟩

end Verif.Tree
