import Verif.Proof.PostPos
import Verif.Proof.LPattern

/-!
# The factor of a post-ordered matrix

If the rows and columns of a symmetric matrix are renumbered by a post order of its elimination tree,
the factor is renumbered in the same way.
-/

namespace Verif
open Relation

variable {E E' : Nat → Nat → Prop} {n : Nat} {par : Nat → Option Nat}

theorem Fill.congr (h : ∀ k i, i < k → k < n → (E k i → E' k i)) {k i : Nat} (hf : Fill E k i)
    (hk : k < n) : Fill E' k i := by
  induction hf with
  | entry h1 h2 => exact Fill.entry h1 (h _ _ h1 hk h2)
  | fill h1 h2 _ _ ih1 ih2 => exact Fill.fill h1 h2 (ih1 hk) (ih2 (by omega))

theorem fill_congr (h : ∀ k i, i < k → k < n → (E k i ↔ E' k i)) {k i : Nat} (hk : k < n) :
    Fill E k i ↔ Fill E' k i :=
  ⟨fun hf => hf.congr (fun k i a b => (h k i a b).1) hk,
    fun hf => hf.congr (fun k i a b => (h k i a b).2) hk⟩

theorem IsEtree.congr (h : ∀ k i, i < k → k < n → (E k i ↔ E' k i)) (hE : IsEtree E n par) :
    IsEtree E' n par := by
  intro j hj
  have := hE j hj
  cases hp : par j with
  | none =>
    rw [hp] at this
    intro k hk hf
    exact this k hk ((fill_congr h hk).2 hf)
  | some p =>
    rw [hp] at this
    refine ⟨this.1, (fill_congr h this.1).1 this.2.1, ?_⟩
    intro k hf
    by_cases hk : k < n
    · exact this.2.2 k ((fill_congr h hk).2 hf)
    · have := this.1; omega

theorem factorCol_congr (h : ∀ k i, i < k → k < n → (E k i ↔ E' k i)) (j : Nat) :
    factorCol E n j = factorCol E' n j := by
  unfold factorCol
  refine List.filter_congr ?_
  intro u hu
  rw [decide_eq_decide, fill_congr h (List.mem_range.1 hu)]

theorem factorRow_congr (h : ∀ k i, i < k → k < n → (E k i ↔ E' k i)) {k : Nat} (hk : k < n) :
    factorRow E n k = factorRow E' n k := by
  unfold factorRow
  refine List.filter_congr ?_
  intro u _
  rw [decide_eq_decide, fill_congr h hk]

section
variable {node pos first : Nat → Nat} (hE : IsEtree E n par) (hPO : PO n par node pos first)
  (hE' : ∀ k i, i < k → k < n → (E' k i ↔ Either E (node k) (node i)))
include hE hPO hE'

theorem relabel_to {k i : Nat} (hf : Fill E k i) (hk : k < n) : Fill E' (pos k) (pos i) := by
  induction hf with
  | @entry k i h1 h2 =>
    have hi : i < n := by omega
    have hlt := hPO.pos_lt_of (hE.sub hk (Fill.entry h1 h2)) hk (by omega)
    refine Fill.entry hlt ((hE' _ _ hlt (hPO.pos_lt k hk)).2 (Or.inl ?_))
    rw [hPO.node_pos k hk, hPO.node_pos i hi]
    exact ⟨h1, h2⟩
  | @fill k i m h1 h2 h3 h4 ih1 ih2 =>
    have hi : i < n := by omega
    exact Fill.fill (hPO.pos_lt_of (hE.sub hi h4) hi (by omega))
      (hPO.pos_lt_of (hE.sub hk (Fill.fill h1 h2 h3 h4)) hk (by omega)) (ih1 hk) (ih2 hi)

theorem relabel_of {k i : Nat} (hf : Fill E' k i) (hk : k < n) : Fill E (node k) (node i) := by
  have key : ∀ a b, a < n → b < n → b < a → ¬ Fill E (node b) (node a) := by
    intro a b ha hb hab hf
    have h1 := hPO.node_lt b hb
    have := hPO.pos_lt_of (hE.sub h1 hf) h1 (Nat.ne_of_lt hf.lt)
    rw [hPO.pos_node a ha, hPO.pos_node b hb] at this
    omega
  induction hf with
  | @entry k i h1 h2 =>
    rcases (hE' _ _ h1 hk).1 h2 with ⟨h3, h4⟩ | ⟨h3, h4⟩
    · exact Fill.entry h3 h4
    · exact absurd (Fill.entry h3 h4) (key k i hk (by omega) h1)
  | @fill k i m h1 h2 h3 h4 ih1 ih2 =>
    have hi : i < n := by omega
    have f1 := ih1 hk
    have f2 := ih2 hi
    rcases Nat.lt_trichotomy (node i) (node k) with h | h | h
    · exact Fill.fill f2.lt h f1 f2
    · have := hPO.pos_node i hi
      rw [h, hPO.pos_node k hk] at this
      omega
    · exact absurd (Fill.fill f1.lt h f2 f1) (key k i hk hi h2)

theorem relabel_iff {k i : Nat} (hk : k < n) (hi : i < n) :
    Fill E' k i ↔ Fill E (node k) (node i) := by
  refine ⟨fun h => relabel_of hE hPO hE' h hk, fun h => ?_⟩
  have := relabel_to hE hPO hE' h (hPO.node_lt k hk)
  rwa [hPO.pos_node k hk, hPO.pos_node i hi] at this

theorem relabel_etree : IsEtree E' n fun k => (par (node k)).map pos := by
  intro j hj
  have hnj := hPO.node_lt j hj
  have hj' := hE (node j) hnj
  cases hp : par (node j) with
  | none =>
    rw [hp] at hj'
    show IsEtreeParent _ _ _ ((par (node j)).map pos)
    rw [hp]
    intro k hk hf
    exact hj' _ (hPO.node_lt k hk) ((relabel_iff hE hPO hE' hk hj).1 hf)
  | some p =>
    rw [hp] at hj'
    show IsEtreeParent _ _ _ ((par (node j)).map pos)
    rw [hp]
    have hpn := hj'.1
    refine ⟨hPO.pos_lt p hpn, ?_, ?_⟩
    · rw [relabel_iff hE hPO hE' (hPO.pos_lt p hpn) hj, hPO.node_pos p hpn]
      exact hj'.2.1
    · intro k hf
      by_cases hk : k < n
      · have hf' := (relabel_iff hE hPO hE' hk hj).1 hf
        have hnk := hPO.node_lt k hk
        obtain ⟨q, h1, h2, h3⟩ := hE.step hnk hf'
        rw [hp] at h1
        obtain rfl := Option.some.inj h1
        have hs : Sub n par p (node k) := by
          by_cases e : p = node k
          · rw [e]; exact Sub.refl _
          · exact hE.sub hnk (h3 e)
        have := hPO.pos_le hs hnk
        rwa [hPO.pos_node k hk] at this
      · have := hPO.pos_lt p hpn; omega

theorem relabel_count {j : Nat} (hj : j < n) :
    (factorCol E' n j).length = (factorCol E n (node j)).length := by
  have hinj : ∀ a, a < n → ∀ b, b < n → node a = node b → a = b := by
    intro a ha b hb e
    have := hPO.pos_node a ha
    rw [e, hPO.pos_node b hb] at this
    exact this.symm
  have hp : ((factorCol E' n j).map node).Perm (factorCol E n (node j)) := by
    refine (List.perm_ext_iff_of_nodup ?_ ?_).2 ?_
    · refine List.Nodup.map_on ?_ (List.nodup_range.filter _)
      intro a ha b hb e
      exact hinj a (mem_factorCol.1 ha).1 b (mem_factorCol.1 hb).1 e
    · exact List.nodup_range.filter _
    · intro u
      rw [List.mem_map, mem_factorCol]
      constructor
      · rintro ⟨a, ha, rfl⟩
        obtain ⟨ha, h⟩ := mem_factorCol.1 ha
        refine ⟨hPO.node_lt a ha, ?_⟩
        rcases h with rfl | h
        · exact Or.inl rfl
        · exact Or.inr ((relabel_iff hE hPO hE' ha hj).1 h)
      · rintro ⟨hu, h⟩
        refine ⟨pos u, mem_factorCol.2 ⟨hPO.pos_lt u hu, ?_⟩, hPO.node_pos u hu⟩
        rcases h with rfl | h
        · exact Or.inl (hPO.pos_node j hj)
        · refine Or.inr ((relabel_iff hE hPO hE' (hPO.pos_lt u hu) hj).2 ?_)
          rwa [hPO.node_pos u hu]
  rw [← hp.length_eq, List.length_map]

omit hE hE' in
/-- After renumbering the subtrees are intervals. -/
theorem relabel_sub {x j : Nat} (hx : x < n) (hj : j < n) :
    Sub n (fun k => (par (node k)).map pos) x j ↔ first (node j) ≤ x ∧ x ≤ j := by
  have h := hPO.sub (node x) (node j) (hPO.node_lt x hx) (hPO.node_lt j hj)
  rw [hPO.pos_node x hx, hPO.pos_node j hj] at h
  rw [← h]
  constructor
  · intro hs
    unfold Sub at hs
    clear h
    induction hs using ReflTransGen.head_induction_on with
    | refl => exact Sub.refl _
    | head h1 h2 ih =>
      rename_i a c
      obtain ⟨ha, hc⟩ := h1
      dsimp only at hc
      obtain ⟨p, hp, rfl⟩ := Option.map_eq_some_iff.1 hc
      have hpn := (hPO.forest _ _ (hPO.node_lt a ha) hp).2
      have := ih (hPO.pos_lt p hpn)
      rw [hPO.node_pos p hpn] at this
      exact Sub.head (hPO.node_lt a ha) hp this
  · intro hs
    have key : ∀ u v, Sub n par u v → u < n → v < n → Sub n (fun k => (par (node k)).map pos) (pos u) (pos v) := by
      intro u v huv
      unfold Sub at huv
      induction huv using ReflTransGen.head_induction_on with
      | refl => intro _ _; exact Sub.refl _
      | head h1 h2 ih =>
        rename_i a c
        intro ha hv
        have hcn := (hPO.forest _ _ h1.1 h1.2).2
        refine Sub.head (hPO.pos_lt a ha) ?_ (ih hcn hv)
        show (par (node (pos a))).map pos = some (pos c)
        rw [hPO.node_pos a ha, h1.2]; rfl
    have := key _ _ hs (hPO.node_lt x hx) (hPO.node_lt j hj)
    rwa [hPO.pos_node x hx, hPO.pos_node j hj] at this
end

end Verif
