import Verif.Proof.Windows
import Verif.Proof.Bucket
import Verif.Proof.SchedBuild
import Verif.Proof.PostOrder

/-! # One coarse level of `computeSchedule` -/

namespace Verif.Hdagg
open Res CC Csc LevelSet

variable {g : Csc} {L : Nat} {ptr set ntl : List Nat}

theorem getElem?_getD {α : Type _} {l : List α} {k : Nat} (d : α) (h : k < l.length) :
    l[k]? = some (l.getD k d) := by
  rw [List.getD_eq_getElem?_getD, List.getElem?_eq_getElem h]; rfl

/-! ### Counting the labels -/

/-- The label of a node as a natural number. -/
def key (lab : List Int) (u : Nat) : Nat := (lab.getD u 0).toNat

theorem LabelsX.key_lt {nodes : List Nat} {lab : List Int} (h : LabelsX g nodes lab)
    (hn : nodes.Nodup) {u : Nat} (hu : u ∈ nodes) : key lab u < g.n := by
  obtain ⟨k, hk⟩ := List.mem_iff_getElem?.1 hu
  have hkl := (List.getElem?_eq_some_iff.1 hk).1
  have h1 := h.range k hkl
  rw [List.getD_eq_getElem?_getD (l := nodes), hk, Option.getD_some] at h1
  have h2 := h.len_le hn
  unfold key
  omega

theorem LabelsX.key_eq {nodes : List Nat} {lab : List Int} (h : LabelsX g nodes lab)
    {u : Nat} (hu : u ∈ nodes) : ((key lab u : Nat) : Int) = lab.getD u 0 := by
  have := h.label_nonneg hu
  unfold key
  omega

/-- Occurrences of a label among all nodes and in the window. -/
theorem LabelsX.count {nodes : List Nat} {lab : List Int} (h : LabelsX g nodes lab)
    (hn : nodes.Nodup) (k : Nat) : lab.countP (fun l => l = (k : Int)) = cntKey (key lab) nodes k := by
  have e1 : lab = (List.range g.n).map fun v => lab.getD v 0 := by
    apply List.ext_getElem?
    intro i
    rw [List.getElem?_map]
    rcases Nat.lt_or_ge i g.n with hi | hi
    · rw [List.getElem?_range hi, getElem?_getD 0 (by rw [h.len]; exact hi)]; rfl
    · rw [List.getElem?_eq_none (by rw [h.len]; exact hi), List.getElem?_eq_none (by simpa using hi)]
      rfl
  conv_lhs => rw [e1]
  rw [List.countP_map, cntKey, List.countP_eq_length_filter, List.countP_eq_length_filter]
  apply List.Perm.length_eq
  rw [List.perm_ext_iff_of_nodup (List.nodup_range.filter _) (hn.filter _)]
  intro v
  simp only [List.mem_filter, List.mem_range, Function.comp, decide_eq_true_eq]
  constructor
  · rintro ⟨h1, h2⟩
    have hv : v ∈ nodes := by
      by_contra hc
      have := h.frame v h1 hc
      omega
    refine ⟨hv, ?_⟩
    have := LabelsX.key_eq h hv
    omega
  · rintro ⟨h1, h2⟩
    have := LabelsX.key_eq h h1
    exact ⟨h.sub v h1, by omega⟩

theorem labelCount_spec {nodes : List Nat} {lab : List Int} (h : LabelsX g nodes lab)
    (hn : nodes.Nodup) : wp (labelCount g.n lab) (fun w => w.length = g.n + 1 ∧
      ∀ k, k ≤ g.n → w.getD k 0 = below (key lab) nodes k) := by
  unfold labelCount
  rw [wp_bind]
  have hr : ∀ l ∈ lab, l = -1 ∨ (0 ≤ l ∧ l < g.n) := by
    intro l hl
    obtain ⟨v, hv⟩ := List.mem_iff_getElem?.1 hl
    have hvl := (List.getElem?_eq_some_iff.1 hv).1
    have e : lab.getD v 0 = l := by rw [List.getD_eq_getElem?_getD, hv]; rfl
    by_cases hm : v ∈ nodes
    · right
      have h1 := LabelsX.key_eq h hm
      have h2 := LabelsX.key_lt h hn hm
      omega
    · left
      rw [← e]; exact h.frame v (by rw [← h.len]; exact hvl) hm
  refine wp_mono (forEach_wp (fun pre (w : List Nat) => w.length = g.n + 1 ∧ w.getD 0 0 = 0 ∧
    ∀ k, k < g.n → w.getD (k + 1) 0 = pre.countP (fun l => l = (k : Int))) lab [] _ ?_ ?_) ?_
  · refine ⟨by simp, getD_replicate _ _ _ _ (by omega), ?_⟩
    intro k hk
    rw [getD_replicate _ _ _ _ (by omega)]; rfl
  · rintro p l q w hpq ⟨h1, h2, h3⟩
    rw [List.nil_append] at hpq
    have hl := hr l (by rw [hpq]; simp)
    by_cases hm : l = -1
    · rw [if_pos hm]
      simp only [wp_ok]
      refine ⟨h1, h2, ?_⟩
      intro k hk
      rw [List.countP_append, h3 k hk, List.countP_cons, List.countP_nil, if_neg (by simp; omega)]
      rfl
    · rw [if_neg hm]
      have hl2 : 0 ≤ l ∧ l < g.n := by omega
      unfold rdZ wrZ
      rw [if_neg (by omega), rd_getD 0 (by omega)]
      simp only [ok_bind]
      rw [if_neg (by omega), wr_eq (by omega)]
      simp only [wp_ok]
      refine ⟨by simpa using h1, by rw [getD_set, if_neg (by omega)]; exact h2, ?_⟩
      intro k hk
      rw [getD_set, h1, List.countP_append, List.countP_cons, List.countP_nil]
      by_cases hk' : (k : Int) = l
      · rw [if_pos ⟨by omega, by omega⟩, if_pos (by simpa using hk'.symm),
          show (l + 1).toNat = k + 1 by omega, h3 k hk]
      · rw [if_neg (by omega), if_neg (by simp; omega), h3 k hk]
        rfl
  · rw [List.nil_append]
    rintro w ⟨h1, h2, h3⟩
    have h3' : ∀ k, k < g.n → w.getD (k + 1) 0 = cntKey (key lab) nodes k := by
      intro k hk; rw [h3 k hk, LabelsX.count h hn k]
    rcases Nat.eq_zero_or_pos g.n with h0 | h0
    · rw [forRange_empty _ _ (by omega)]
      refine ⟨h1, ?_⟩
      intro k hk
      have : k = 0 := by omega
      rw [this, h2, below_zero]
    · refine forRange_wp' (fun i (w' : List Nat) => w'.length = g.n + 1 ∧
        (∀ k, k ≤ i → w'.getD k 0 = below (key lab) nodes k) ∧
        ∀ k, i < k → w'.getD k 0 = w.getD k 0) (by omega) ?_ ?_ ?_
      · refine ⟨h1, ?_, fun _ _ => rfl⟩
        intro k hk
        have : k = 0 ∨ k = 1 := by omega
        rcases this with rfl | rfl
        · rw [h2, below_zero]
        · rw [h3' 0 h0, below_succ, below_zero, Nat.zero_add]
      · rintro i w' hi1 hi2 ⟨a1, a2, a3⟩
        rw [rd_getD 0 (by omega)]
        simp only [ok_bind]
        rw [rd_getD 0 (by omega)]
        simp only [ok_bind]
        rw [wr_eq (by omega)]
        simp only [wp_ok]
        refine ⟨by simpa using a1, ?_, ?_⟩
        · intro k hk
          rw [getD_set, a1]
          by_cases hk' : i + 1 = k
          · subst hk'
            rw [if_pos ⟨rfl, by omega⟩, a3 _ (by omega), a2 i (le_refl _), h3' i hi2, below_succ,
              Nat.add_comm]
          · rw [if_neg (by omega)]; exact a2 k (by omega)
        · intro k hk
          rw [getD_set, if_neg (by omega)]; exact a3 k (by omega)
      · rintro w' ⟨a1, a2, _⟩
        exact ⟨a1, a2⟩

/-! ### The part boundaries -/

/-- Boundaries of the label classes. -/
def partBounds (n : Nat) (nodes : List Nat) (lab : List Int) : List Nat :=
  0 :: (labelList n lab).map fun i => below (key lab) nodes (i + 1)

theorem partPtrOf_spec {nodes : List Nat} {lab : List Int} (h : LabelsX g nodes lab) {w : List Nat}
    (hw1 : w.length = g.n + 1) (hw2 : ∀ k, k ≤ g.n → w.getD k 0 = below (key lab) nodes k) :
    partPtrOf g.n w = ok (partBounds g.n nodes lab) := by
  have key' : wp (partPtrOf g.n w) (fun r => r = partBounds g.n nodes lab) := by
    unfold partPtrOf
    refine forRange_wp' (fun i (acc : List Nat) => acc = partBounds i nodes lab) (Nat.zero_le _) ?_ ?_
      (fun _ h => h)
    · simp [partBounds, labelList]
    · rintro i acc _ hi rfl
      rw [rd_getD 0 (by omega)]
      simp only [ok_bind]
      rw [rd_getD 0 (by omega)]
      simp only [ok_bind]
      rw [hw2 i (by omega), hw2 (i + 1) (by omega)]
      have hiff : below (key lab) nodes (i + 1) ≠ below (key lab) nodes i ↔ ((i : Int) ∈ lab) := by
        rw [below_succ, h.mem_lab]
        have : 0 < cntKey (key lab) nodes i ↔ ∃ u ∈ nodes, lab.getD u 0 = i := by
          unfold cntKey
          rw [List.countP_pos_iff]
          constructor
          · rintro ⟨u, hu, he⟩
            have := LabelsX.key_eq h hu
            exact ⟨u, hu, by rw [← this]; simp at he; rw [he]⟩
          · rintro ⟨u, hu, he⟩
            have := LabelsX.key_eq h hu
            exact ⟨u, hu, by simp; omega⟩
        rw [← this]; omega
      by_cases hm : (i : Int) ∈ lab
      · rw [if_pos (hiff.2 hm)]
        simp [partBounds, labelList, List.range_succ, List.filter_append, hm]
      · rw [if_neg (fun hc => hm (hiff.1 hc))]
        simp [partBounds, labelList, List.range_succ, List.filter_append, hm]
  obtain ⟨r, h1, h2⟩ := wp_iff.1 key'
  rw [h1, h2]

/-! ### The nodes by label -/

theorem nodePtrOf_spec {nodes : List Nat} {lab : List Int} (h : LabelsX g nodes lab)
    (hn : nodes.Nodup) {w : List Nat} (hw1 : w.length = g.n + 1)
    (hw2 : ∀ k, k ≤ g.n → w.getD k 0 = below (key lab) nodes k) :
    nodePtrOf lab nodes w = ok (bucket g.n (key lab) nodes) := by
  have key' : wp (nodePtrOf lab nodes w) (fun r => r = bucket g.n (key lab) nodes) := by
    unfold nodePtrOf
    rw [wp_bind]
    refine wp_mono (forEach_wp (fun pre (s : List Nat × List Nat) => s.1.length = g.n + 1 ∧
      (∀ k, k < g.n → s.1.getD k 0 = posOf (key lab) nodes pre k) ∧
      Filled (key lab) id nodes pre s.2) nodes [] _ ?_ ?_) ?_
    · refine ⟨hw1, ?_, Filled.init _ _ (by simp)⟩
      intro k hk
      rw [hw2 k (by omega)]
      simp [posOf]
    · rintro p u q ⟨w', out⟩ hpq ⟨a1, a2, a3⟩
      rw [List.nil_append] at hpq
      simp only at a1 a2 a3 ⊢
      have hu : u ∈ nodes := by rw [hpq]; simp
      have hun := h.sub u hu
      have hkl := LabelsX.key_lt h hn hu
      have hke := LabelsX.key_eq h hu
      rw [rd_getD 0 (by rw [h.len]; exact hun)]
      simp only [ok_bind]
      rw [← hke]
      unfold rdZ wrZ
      rw [if_neg (by omega), Int.toNat_natCast, rd_getD 0 (by omega)]
      simp only [ok_bind]
      rw [a2 _ hkl]
      rw [wr_eq (by rw [a3.len]; exact posOf_lt_length _ hpq)]
      simp only [ok_bind]
      rw [if_neg (by omega), wr_eq (by omega)]
      simp only [ok_bind, wp_ok]
      refine ⟨by simpa using a1, ?_, a3.step hpq⟩
      intro k hk
      rw [getD_set, a1]
      by_cases hk' : key lab u = k
      · subst hk'
        rw [if_pos ⟨rfl, by omega⟩]
        unfold posOf
        rw [cntKey_concat, if_pos rfl]; omega
      · rw [if_neg (by tauto), a2 k hk]
        unfold posOf
        rw [cntKey_concat, if_neg hk', Nat.add_zero]
    · rw [List.nil_append]
      rintro ⟨w', out⟩ ⟨_, _, a3⟩
      simp only [wp_ok]
      have := a3.done (m := g.n) (fun u hu => LabelsX.key_lt h hn hu)
      simpa using this
  obtain ⟨r, h1, h2⟩ := wp_iff.1 key'
  rw [h1, h2]

end Verif.Hdagg
