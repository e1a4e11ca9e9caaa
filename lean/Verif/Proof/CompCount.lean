import Verif.Spec.CompCount
import Verif.Proof.CCSpec
import Verif.Proof.Slices
import Mathlib.Data.Fintype.Card
import Mathlib.Data.List.Perm.Subperm

/-! # Counting components -/

namespace Verif
open CC Csc

variable {g : Csc}

theorem Csc.conn_symm {W : Nat → Prop} {u v : Nat} (h : g.Connected W u v) :
    g.Connected W v u := Relation.EqvGen.symm _ _ h

theorem Csc.conn_trans {W : Nat → Prop} {u v w : Nat} (h : g.Connected W u v)
    (h' : g.Connected W v w) : g.Connected W u w := Relation.EqvGen.trans _ _ _ h h'

/-- Enlarging a window by nodes that are connected to it does not increase the number of
components. -/
theorem representatives_le {nodes nodes' reps reps' : List Nat} (h : g.Representatives nodes reps)
    (h' : g.Representatives nodes' reps') (hs : ∀ v ∈ nodes, v ∈ nodes')
    (hc : ∀ v ∈ nodes', ∃ u ∈ nodes, g.Connected (· ∈ nodes') u v) :
    reps'.length ≤ reps.length := by
  have key : ∀ q : Fin reps'.length, ∃ q' : Fin reps.length,
      g.Connected (· ∈ nodes') reps[q'] reps'[q] := by
    intro q
    obtain ⟨u, hu, hcu⟩ := hc reps'[q] (h'.inside _ (List.getElem_mem _))
    obtain ⟨r, hr, hru⟩ := h.every u hu
    obtain ⟨q', hq', rfl⟩ := List.mem_iff_getElem.1 hr
    exact ⟨⟨q', hq'⟩, Csc.conn_trans (Connected.mono hs hru) hcu⟩
  choose f hf using key
  have hinj : Function.Injective f := by
    intro a b hab
    have h1 := hf a
    have h2 := hf b
    rw [← hab] at h2
    have := h'.once a b _ _ (List.getElem?_eq_getElem a.2) (List.getElem?_eq_getElem b.2)
      (Csc.conn_trans (Csc.conn_symm h1) h2)
    exact Fin.ext this
  simpa using Fintype.card_le_of_injective f hinj

theorem representatives_eq {nodes reps reps' : List Nat} (h : g.Representatives nodes reps)
    (h' : g.Representatives nodes reps') : reps'.length = reps.length :=
  Nat.le_antisymm (representatives_le h h' (fun _ h => h) fun v hv => ⟨v, hv, .refl _⟩)
    (representatives_le h' h (fun _ h => h) fun v hv => ⟨v, hv, .refl _⟩)

/-- The labels that occur, in increasing order. -/
def labelList (n : Nat) (lab : List Int) : List Nat :=
  (List.range n).filter fun i => decide ((i : Int) ∈ lab)

/-- The node that carries the number of a label. -/
def repList (n : Nat) (nodes : List Nat) (lab : List Int) : List Nat :=
  (labelList n lab).map fun i => nodes.getD i 0

/-- The labels of a window, together with "all other nodes have no label". -/
structure LabelsX (g : Csc) (nodes : List Nat) (lab : List Int) : Prop extends
    Labels g nodes lab where
  frame : ∀ v, v < g.n → v ∉ nodes → lab.getD v 0 = -1
  sub : ∀ v ∈ nodes, v < g.n

namespace LabelsX
variable {nodes : List Nat} {lab : List Int}

theorem label_nonneg (h : LabelsX g nodes lab) {u : Nat} (hu : u ∈ nodes) :
    0 ≤ lab.getD u 0 ∧ lab.getD u 0 < nodes.length := by
  obtain ⟨k, hk, rfl⟩ := List.mem_iff_getElem.1 hu
  have := h.range k hk
  rw [List.getD_eq_getElem?_getD (l := nodes), List.getElem?_eq_getElem hk] at this
  simp only [Option.getD_some] at this
  omega

theorem mem_lab (h : LabelsX g nodes lab) {i : Nat} :
    (i : Int) ∈ lab ↔ ∃ u ∈ nodes, lab.getD u 0 = i := by
  constructor
  · intro hi
    obtain ⟨v, hv, he⟩ := List.mem_iff_getElem.1 hi
    have e : lab.getD v 0 = i := by
      rw [List.getD_eq_getElem?_getD, List.getElem?_eq_getElem hv]; exact he
    refine ⟨v, ?_, e⟩
    by_contra hn
    have := h.frame v (by rw [← h.len]; exact hv) hn
    omega
  · rintro ⟨u, hu, he⟩
    have hl : u < lab.length := by rw [h.len]; exact h.sub u hu
    rw [List.getD_eq_getElem?_getD, List.getElem?_eq_getElem hl] at he
    simp only [Option.getD_some] at he
    rw [← he]; exact List.getElem_mem _

/-- The node at the position given by an occurring label has that label. -/
theorem rep_label (h : LabelsX g nodes lab) {i : Nat} (hi : (i : Int) ∈ lab) :
    i < nodes.length ∧ nodes.getD i 0 ∈ nodes ∧ lab.getD (nodes.getD i 0) 0 = i := by
  obtain ⟨u, hu, he⟩ := h.mem_lab.1 hi
  have h1 := h.label_nonneg hu
  have hil : i < nodes.length := by omega
  refine ⟨hil, ?_, ?_⟩
  · rw [List.getD_eq_getElem?_getD, List.getElem?_eq_getElem hil]; exact List.getElem_mem _
  · obtain ⟨k, hk, rfl⟩ := List.mem_iff_getElem.1 hu
    have := h.root k hk
    rw [List.getD_eq_getElem?_getD (l := nodes) (i := k), List.getElem?_eq_getElem hk] at this
    simp only [Option.getD_some] at this
    rw [he] at this
    simpa using this

theorem len_le (h : LabelsX g nodes lab) (hn : nodes.Nodup) : nodes.length ≤ g.n := by
  have hsub : nodes ⊆ List.range g.n := fun v hv => List.mem_range.2 (h.sub v hv)
  simpa using (List.subperm_of_subset hn hsub).length_le

theorem representatives (h : LabelsX g nodes lab) (hn : nodes.Nodup) :
    g.Representatives nodes (repList g.n nodes lab) := by
  have hle := h.len_le hn
  have hmem : ∀ r, r ∈ repList g.n nodes lab ↔ ∃ i : Nat, (i : Int) ∈ lab ∧ nodes.getD i 0 = r := by
    intro r
    simp only [repList, labelList, List.mem_map, List.mem_filter, List.mem_range,
      decide_eq_true_eq]
    constructor
    · rintro ⟨i, ⟨_, h1⟩, h2⟩; exact ⟨i, h1, h2⟩
    · rintro ⟨i, h1, h2⟩
      have := (h.rep_label h1).1
      exact ⟨i, ⟨by omega, h1⟩, h2⟩
  refine ⟨?_, ?_, ?_⟩
  · intro r hr
    obtain ⟨i, hi, rfl⟩ := (hmem r).1 hr
    exact (h.rep_label hi).2.1
  · intro u hu
    have h1 := h.label_nonneg hu
    have hi : ((lab.getD u 0).toNat : Int) ∈ lab := h.mem_lab.2 ⟨u, hu, by omega⟩
    refine ⟨_, (hmem _).2 ⟨_, hi, rfl⟩, ?_⟩
    obtain ⟨h2, h3, h4⟩ := h.rep_label hi
    rw [← h.conn _ h3 u hu, h4]
    omega
  · intro q q' r r' hq hq' hc
    unfold repList at hq hq'
    rw [List.getElem?_map, Option.map_eq_some_iff] at hq hq'
    obtain ⟨i, hi, rfl⟩ := hq
    obtain ⟨j, hj, rfl⟩ := hq'
    have hmi := List.mem_of_getElem? hi
    have hmj := List.mem_of_getElem? hj
    simp only [labelList, List.mem_filter, decide_eq_true_eq] at hmi hmj
    have e1 := h.rep_label hmi.2
    have e2 := h.rep_label hmj.2
    rw [← h.conn _ e1.2.1 _ e2.2.1, e1.2.2, e2.2.2] at hc
    have : i = j := by exact_mod_cast hc
    subst this
    exact nodup_getElem?_inj (List.nodup_range.filter _) hi hj

end LabelsX

/-- Position of a label among the occurring ones. -/
theorem filter_range_rank (p : Nat → Bool) : ∀ {n i : Nat}, i < n → p i = true →
    ((List.range n).filter p)[((List.range i).filter p).length]? = some i := by
  intro n
  induction n with
  | zero => intro i h; omega
  | succ n ih =>
    intro i hi hp
    rw [List.range_succ, List.filter_append]
    by_cases h : i < n
    · have h1 := ih h hp
      rw [List.getElem?_append_left (List.getElem?_eq_some_iff.1 h1).1]
      exact h1
    · have : i = n := by omega
      subst this
      rw [List.getElem?_append_right (le_refl _)]
      simp [hp]

end Verif
