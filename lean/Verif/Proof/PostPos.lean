import Verif.Proof.RowTree
import Verif.Spec.Forest
import Mathlib.Algebra.BigOperators.Group.Finset.Basic
import Mathlib.Algebra.BigOperators.Group.Finset.Piecewise
import Mathlib.Algebra.BigOperators.Ring.Finset
import Mathlib.Tactic.Ring
import Mathlib.Tactic.Linarith

/-! # Positions in a post order -/

namespace Verif
open Relation

variable {n : Nat} {par : Nat → Option Nat}

/-- `node` lists the nodes in post order, `pos` is its inverse, and `first j` is the position of the
first descendant of `j`. -/
structure PO (n : Nat) (par : Nat → Option Nat) (node pos first : Nat → Nat) : Prop where
  forest : Forest n par
  node_lt : ∀ k, k < n → node k < n
  pos_lt : ∀ x, x < n → pos x < n
  pos_node : ∀ k, k < n → pos (node k) = k
  node_pos : ∀ x, x < n → node (pos x) = x
  sub : ∀ x j, x < n → j < n → (Sub n par x j ↔ first j ≤ pos x ∧ pos x ≤ pos j)

theorem sub_iff_trans {x j : Nat} : Sub n par x j ↔ x = j ∨ TransGen (ChildOf n par) x j := by
  unfold Sub
  rw [reflTransGen_iff_eq_or_transGen]
  constructor
  · rintro (h | h)
    · exact Or.inl h.symm
    · exact Or.inr h
  · rintro (h | h)
    · exact Or.inl h.symm
    · exact Or.inr h

theorem IsPostOrder.po {before : Nat → Nat → Prop} {l : List Nat} (h : IsPostOrder n par before l)
    (hf : Forest n par) : ∃ first, PO n par (fun k => l.getD k 0) (fun x => l.idxOf x) first := by
  have hlen : l.length = n := by have := h.perm.length_eq; simpa using this
  have hmem : ∀ x, x ∈ l ↔ x < n := fun x => by rw [h.perm.mem_iff, List.mem_range]
  have hnd : l.Nodup := h.perm.nodup_iff.2 List.nodup_range
  have key : ∀ j, ∃ f, j < n → ∀ x, x < n → (Sub n par x j ↔ f ≤ l.idxOf x ∧ l.idxOf x ≤ l.idxOf j) := by
    intro j
    by_cases hj : j < n
    · obtain ⟨a, D, b, e, hD⟩ := h.block j hj
      refine ⟨a.length, fun _ x hx => ?_⟩
      have hx' : x ∈ l := (hmem x).2 hx
      have hnd' := hnd
      rw [e] at hnd' hx'
      have hja : j ∉ a ++ D := by
        intro hm
        exact (List.nodup_append.1 hnd').2.2 j hm j (by simp) rfl
      have hpj : l.idxOf j = a.length + D.length := by
        rw [e, List.idxOf_append_of_notMem hja]; simp
      rw [hpj]
      by_cases hxa : x ∈ a
      · have h1 : l.idxOf x < a.length := by
          rw [e, List.append_assoc, List.idxOf_append_of_mem hxa]
          exact List.idxOf_lt_length_of_mem hxa
        constructor
        · intro hs
          exfalso
          rcases sub_iff_trans.1 hs with rfl | ht
          · exact hja (by simp [hxa])
          · have hxD := (hD x).2 ht
            exact (List.nodup_append.1 (List.nodup_append.1 hnd').1).2.2 x hxa x hxD rfl
        · intro hs; omega
      · by_cases hxD : x ∈ D
        · have h1 : l.idxOf x = a.length + D.idxOf x := by
            rw [e, List.append_assoc, List.idxOf_append_of_notMem hxa, List.idxOf_append_of_mem hxD]
          have h2 := List.idxOf_lt_length_of_mem hxD
          constructor
          · intro _; omega
          · intro _; exact sub_iff_trans.2 (Or.inr ((hD x).1 hxD))
        · have hxn : x ∉ a ++ D := by simp [hxa, hxD]
          by_cases e' : x = j
          · subst e'
            constructor
            · intro _; omega
            · intro _; exact Sub.refl _
          · constructor
            · intro hs
              exfalso
              rcases sub_iff_trans.1 hs with h | h
              · exact e' h
              · exact hxD ((hD x).2 h)
            · rintro ⟨_, h2⟩
              exfalso
              rw [e, List.idxOf_append_of_notMem hxn, List.idxOf_cons_ne _ (Ne.symm e')] at h2
              simp at h2
    · exact ⟨0, fun h => absurd h hj⟩
  choose first hfirst using key
  refine ⟨first, hf, ?_, ?_, ?_, ?_, fun x j hx hj => hfirst j hj x hx⟩
  · intro k hk
    rw [← hmem]
    have : k < l.length := by omega
    simp [this]
  · intro x hx
    have := List.idxOf_lt_length_of_mem ((hmem x).2 hx)
    omega
  · intro k hk
    have hk' : k < l.length := by omega
    simp only [List.getD_eq_getElem?_getD, List.getElem?_eq_getElem hk', Option.getD_some]
    exact hnd.idxOf_getElem k hk'
  · intro x hx
    have := List.idxOf_lt_length_of_mem ((hmem x).2 hx)
    simp only [List.getD_eq_getElem?_getD, List.getElem?_eq_getElem this, Option.getD_some]
    exact List.getElem_idxOf this

namespace PO
variable {node pos first : Nat → Nat} (h : PO n par node pos first)
include h

theorem first_le {j : Nat} (hj : j < n) : first j ≤ pos j := ((h.sub j j hj hj).1 (Sub.refl _)).1

theorem pos_inj {x y : Nat} (hx : x < n) (hy : y < n) (e : pos x = pos y) : x = y := by
  rw [← h.node_pos x hx, ← h.node_pos y hy, e]

theorem pos_le {x y : Nat} (hs : Sub n par x y) (hy : y < n) : pos x ≤ pos y :=
  ((h.sub x y (hs.lt_left h.forest hy) hy).1 hs).2

theorem le_pos {x y : Nat} (hs : Sub n par x y) (hy : y < n) : first y ≤ pos x :=
  ((h.sub x y (hs.lt_left h.forest hy) hy).1 hs).1

theorem pos_lt_of {x y : Nat} (hs : Sub n par x y) (hy : y < n) (hne : x ≠ y) : pos x < pos y := by
  have h1 := h.pos_le hs hy
  have h2 : pos x ≠ pos y := fun e => hne (h.pos_inj (hs.lt_left h.forest hy) hy e)
  omega

/-- The first position belongs to a descendant. -/
theorem first_sub {j : Nat} (hj : j < n) : Sub n par (node (first j)) j := by
  have hf := h.first_le hj
  have hp := h.pos_lt j hj
  rw [h.sub _ j (h.node_lt _ (by omega)) hj, h.pos_node _ (by omega)]
  omega

theorem first_mono {x y : Nat} (hs : Sub n par x y) (hy : y < n) : first y ≤ first x := by
  have hx := hs.lt_left h.forest hy
  have hf := h.first_le hx
  have hp := h.pos_lt x hx
  have := h.le_pos ((h.first_sub hx).trans hs) hy
  rw [h.pos_node _ (by omega)] at this
  exact this

/-- Nodes without a child. -/
theorem first_eq_iff {j : Nat} (hj : j < n) : first j = pos j ↔ ∀ x, ¬ ChildOf n par x j := by
  constructor
  · intro e x hx
    have hs := Sub.parent hx.1 hx.2
    have h1 := h.le_pos hs hj
    have h2 := h.pos_lt_of hs hj (by have := h.forest x j hx.1 hx.2; omega)
    omega
  · intro hc
    have hs := h.first_sub hj
    rcases ReflTransGen.cases_tail hs with e | ⟨c, _, hc'⟩
    · have hf := h.first_le hj
      have hp := h.pos_lt j hj
      have hn := h.pos_node (first j) (by omega)
      rw [← e] at hn
      exact hn.symm
    · exact absurd hc' (hc c)

end PO

/-- Ancestors-or-self of a node that may be absent. -/
def SubO (n : Nat) (par : Nat → Option Nat) (o : Option Nat) (x : Nat) : Prop :=
  ∃ r, o = some r ∧ Sub n par r x

theorem subO_none (x : Nat) : ¬ SubO n par none x := by rintro ⟨r, h, _⟩; cases h

theorem subO_some {r x : Nat} : SubO n par (some r) x ↔ Sub n par r x :=
  ⟨by rintro ⟨r', h, hs⟩; cases h; exact hs, fun h => ⟨r, rfl, h⟩⟩

theorem subO_par (hf : Forest n par) {s x : Nat} (hs : s < n) :
    SubO n par (par s) x ↔ Sub n par s x ∧ s ≠ x := by
  constructor
  · rintro ⟨r, h1, h2⟩
    have := h2.le hf
    have := hf s r hs h1
    exact ⟨Sub.head hs h1 h2, by omega⟩
  · rintro ⟨h1, h2⟩
    obtain ⟨p, _, h3, h4⟩ := h1.step h2
    exact ⟨p, h3, h4⟩

/-! ### Sums -/

open Classical in
/-- 1 if the proposition holds, else 0. -/
noncomputable def ind (P : Prop) : Int := if P then 1 else 0

theorem ind_pos {P : Prop} (h : P) : ind P = 1 := by simp [ind, h]
theorem ind_neg {P : Prop} (h : ¬ P) : ind P = 0 := by simp [ind, h]
theorem ind_congr {P Q : Prop} (h : P ↔ Q) : ind P = ind Q := by rw [propext h]
theorem ind_or {P Q : Prop} (h : ¬ (P ∧ Q)) : ind (P ∨ Q) = ind P + ind Q := by
  by_cases hP : P <;> by_cases hQ : Q <;> simp_all [ind]

/-- Changing one term of a sum. -/
theorem sum_except {f g : Nat → Int} {u : Nat} (hu : u < n) (hfg : ∀ x, x < n → x ≠ u → f x = g x) :
    (Finset.range n).sum f = (Finset.range n).sum g + (f u - g u) := by
  have hu' : u ∈ Finset.range n := Finset.mem_range.2 hu
  rw [← Finset.add_sum_erase _ f hu', ← Finset.add_sum_erase _ g hu']
  have : ((Finset.range n).erase u).sum f = ((Finset.range n).erase u).sum g := by
    refine Finset.sum_congr rfl ?_
    intro x hx
    rw [Finset.mem_erase, Finset.mem_range] at hx
    exact hfg x hx.2 hx.1
  rw [this]; ring

theorem sum_ind_filter {P : Nat → Prop} [DecidablePred P] :
    (Finset.range n).sum (fun x => ind (P x)) = (((List.range n).filter fun x => P x).length : Int) := by
  induction n with
  | zero => simp
  | succ n ih =>
    rw [Finset.sum_range_succ, ih, List.range_succ, List.filter_append, List.length_append]
    by_cases h : P n
    · simp [h, ind]
    · simp [h, ind]

/-- The sum of `c` over the descendants of `j`. -/
noncomputable def subSum (n : Nat) (par : Nat → Option Nat) (c : Nat → Int) (j : Nat) : Int :=
  (Finset.range n).sum fun i => c i * ind (Sub n par i j)

theorem subSum_add {c c' : Nat → Int} {p j : Nat} {d : Int} (hp : p < n)
    (h : ∀ x, x < n → c' x = if x = p then c x + d else c x) :
    subSum n par c' j = subSum n par c j + d * ind (Sub n par p j) := by
  unfold subSum
  rw [sum_except (f := fun i => c' i * ind (Sub n par i j)) (g := fun i => c i * ind (Sub n par i j)) hp]
  · rw [h p hp, if_pos rfl]; ring
  · intro x hx hne
    rw [h x hx, if_neg hne]

/-- The number of ancestors of a node, itself included. -/
noncomputable def height (n : Nat) (par : Nat → Option Nat) (x : Nat) : Int :=
  (Finset.range n).sum fun j => ind (Sub n par x j)

theorem height_par (hf : Forest n par) {x p : Nat} (hx : x < n) (hp : par x = some p) :
    height n par x = height n par p + 1 := by
  unfold height
  have hxp := hf x p hx hp
  rw [sum_except (f := fun j => ind (Sub n par x j)) (g := fun j => ind (Sub n par p j)) hx]
  · rw [ind_pos (Sub.refl x), ind_neg]
    · ring
    · intro hs; have := hs.le hf; omega
  · intro j hj hne
    refine ind_congr ?_
    rw [← subO_some (r := p), ← hp, subO_par hf hx]
    exact ⟨fun h => ⟨h, Ne.symm hne⟩, fun h => h.1⟩

theorem height_root {x : Nat} (hx : x < n) (hp : par x = none) : height n par x = 1 := by
  unfold height
  rw [sum_except (f := fun j => ind (Sub n par x j)) (g := fun j => 0) hx]
  · rw [ind_pos (Sub.refl x)]; simp
  · intro j hj hne
    refine ind_neg ?_
    intro hs
    obtain ⟨p, _, h, _⟩ := hs.step (Ne.symm hne)
    rw [hp] at h; cases h

/-- The nodes between two comparable nodes. -/
theorem height_sub {x y : Nat} (h : Sub n par x y) :
    (Finset.range n).sum (fun j => ind (Sub n par x j ∧ ¬ Sub n par y j))
      = height n par x - height n par y := by
  unfold height
  rw [← Finset.sum_sub_distrib]
  refine Finset.sum_congr rfl ?_
  intro j _
  by_cases h1 : Sub n par y j
  · rw [ind_pos h1, ind_pos (h.trans h1), ind_neg (by tauto)]; ring
  · rw [ind_neg h1]
    by_cases h2 : Sub n par x j
    · rw [ind_pos h2, ind_pos ⟨h2, h1⟩]; ring
    · rw [ind_neg h2, ind_neg (by tauto)]; ring

end Verif
