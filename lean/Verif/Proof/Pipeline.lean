import Verif.Proof.Ungroup
import Verif.Proof.Paths
import Mathlib.Data.List.Chain
import Mathlib.Data.List.Perm.Subperm

/-! # Lemmas for the grouped solvers -/

namespace Verif
open Res Relation

namespace Csc
variable {g : Csc}

theorem PathTo.list {k v : Nat} (hwf : g.WF) (h : g.PathTo k v) :
    ∃ l : List Nat, l.length = k + 1 ∧ l.IsChain g.Dep ∧ l.getLast? = some v ∧ ∀ x ∈ l, x < g.n := by
  induction h with
  | nil hv => exact ⟨[_], rfl, by simp, rfl, by simpa using hv⟩
  | @snoc k u v hp hd ih =>
    obtain ⟨l, h1, h2, h3, h4⟩ := ih
    refine ⟨l ++ [v], by simp [h1], ?_, by simp, ?_⟩
    · rw [List.isChain_append]
      refine ⟨h2, by simp, ?_⟩
      intro x hx y hy
      rw [h3] at hx
      simp only [Option.mem_def, Option.some.injEq, List.head?_cons] at hx hy
      rw [← hx, ← hy]; exact hd
    · intro x hx
      rcases List.mem_append.1 hx with hx | hx
      · exact h4 x hx
      · rw [List.mem_singleton] at hx
        rw [hx]; exact (hwf.dep_lt hd).2

theorem pathTo_of_list (l : List Nat) : ∀ {v : Nat}, l.IsChain g.Dep → l.getLast? = some v →
    (∀ x ∈ l, x < g.n) → g.PathTo (l.length - 1) v := by
  induction l using List.reverseRecOn with
  | nil => intro v _ h; simp at h
  | append_singleton l a ih =>
    intro v hc hl hx
    simp only [List.getLast?_append, List.getLast?_singleton, Option.some_or, Option.some.injEq] at hl
    subst hl
    rw [List.isChain_append] at hc
    rw [List.length_append, List.length_singleton, Nat.add_sub_cancel]
    rcases hle : l.getLast? with _ | u
    · rw [List.getLast?_eq_none_iff] at hle
      subst hle
      exact .nil (hx a (by simp))
    · have hp := ih hc.1 hle (fun x h => hx x (by simp [h]))
      have hne : l ≠ [] := by rintro rfl; simp at hle
      have : 0 < l.length := List.length_pos_iff.2 hne
      have hs := PathTo.snoc hp (hc.2.2 u hle a (by simp))
      rwa [Nat.sub_add_cancel this] at hs

/-- A path with `n - 1` edges visits all nodes. -/
theorem isDepth_last_iff (hwf : g.WF) (ha : g.Acyclic) (hpos : 0 < g.n) :
    (∃ v, g.IsDepth v (g.n - 1)) ↔ ∃ l : List Nat, l.Perm (List.range g.n) ∧ l.IsChain g.Dep := by
  constructor
  · rintro ⟨v, hp, _⟩
    obtain ⟨l, h1, h2, _, h4⟩ := hp.list hwf
    refine ⟨l, ?_, h2⟩
    have hpw : l.Pairwise (TransGen g.Dep) :=
      List.isChain_iff_pairwise.1 (h2.imp fun _ _ h => TransGen.single h)
    have hnd : l.Nodup := by
      refine List.Pairwise.imp ?_ hpw
      rintro a b h rfl
      exact ha a h
    refine (List.subperm_of_subset hnd (fun x hx => List.mem_range.2 (h4 x hx))).perm_of_length_le ?_
    rw [List.length_range]; omega
  · rintro ⟨l, h1, h2⟩
    have hlen : l.length = g.n := by simpa using h1.length_eq
    have hne : l ≠ [] := by rintro rfl; simp at hlen; omega
    have hp := pathTo_of_list l h2 (List.getLast?_eq_some_getLast hne)
      (fun x hx => List.mem_range.1 (h1.mem_iff.1 hx))
    rw [hlen] at hp
    exact ⟨_, hp, fun m hm => by have := hm.lt_n hwf ha; omega⟩

end Csc

/-- A complete schedule that respects the dependences of a graph respects everything that follows
from them. -/
theorem Sched.Respects.trans {s : Sched} {n : Nat} {D : Nat → Nat → Prop} (hp : s.PtrsOk n)
    (hc : s.Complete n) (h : s.Respects D) (hD : ∀ u v, D u v → v < n) :
    s.Respects (TransGen D) := by
  have hat : ∀ v, v < n → ∃ l q k, s.At v l q k := by
    intro v hv
    obtain ⟨parts, h1, h2⟩ := hp
    obtain ⟨k, hk⟩ := List.mem_iff_getElem?.1 (hc.mem_iff.2 (List.mem_range.2 hv))
    have hk' : k < n := by
      by_contra hge
      rw [List.getElem?_eq_none (by rw [List.length_take]; omega)] at hk
      simp at hk
    rw [List.getElem?_take, if_pos hk'] at hk
    obtain ⟨q, hq, a1, a2⟩ := LevelSet.exists_block h2.d0 (by rw [h2.dlast]; exact hk')
    obtain ⟨l, hl, b1, b2⟩ := LevelSet.exists_block h1.d0 (by rw [h1.dlast]; exact hq)
    exact ⟨l, q, k, hl, (h1.inBlock_iff hl).2 ⟨b1, b2⟩, (h2.inBlock_iff hq).2 ⟨a1, a2⟩, hk⟩
  intro u v huv
  induction huv with
  | single hd => exact h _ _ hd
  | @tail b c h1 hd ih =>
    by_cases hb : ∃ a, D a b
    · obtain ⟨a, hab⟩ := hb
      obtain ⟨lb, qb, kb, hb⟩ := hat b (hD a b hab)
      intro l q k l' q' k' hu hv
      have e1 := ih l q k lb qb kb hu hb
      have e2 := h _ _ hd lb qb kb l' q' k' hb hv
      omega
    · exfalso
      cases h1 with
      | single h => exact hb ⟨_, h⟩
      | tail _ h => exact hb ⟨_, h⟩

theorem Sched.Valid.of_trans {s : Sched} {n : Nat} {D E : Nat → Nat → Prop} (h : s.Valid n D)
    (hD : ∀ u v, D u v → v < n) (hE : ∀ u v, E u v → TransGen D u v) : s.Valid n E :=
  ⟨h.ptrs, h.complete, fun u v huv =>
    Sched.Respects.trans h.ptrs h.complete h.respects hD u v (hE u v huv)⟩

end Verif
