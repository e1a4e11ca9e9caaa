import Verif.Model.PostSplit
import Verif.Proof.TreeUtil

/-! # Splitting a forest into its trees -/

namespace Verif.Split
open Res Verif.Tree

variable {n : Nat} {t : List Int}

/-- A node of the window. -/
def Inside (n : Nat) (t : List Int) (v : Nat) : Prop := v < n ∧ t.getD v (-1) ≠ -2

/-- Parents are inside of the window. -/
def Closed (n : Nat) (t : List Int) : Prop := ∀ c p, ChildOf n (parentOf t) c p → Inside n t p

theorem inside_of_child {c p : Nat} (h : ChildOf n (parentOf t) c p) : Inside n t c := by
  refine ⟨h.1, ?_⟩
  have := parentOf_some.1 h.2
  omega

/-! ### The stack -/

/-- The stack: visited nodes `V`, marked nodes `M`, stack `S` with bottom `b`. -/
structure StackInv (n : Nat) (t : List Int) (V M : Nat → Prop) (S : List Nat) (b : Nat) : Prop where
  down : ∀ c p, ChildOf n (parentOf t) c p → V p → V c
  nodup : S.Nodup
  last : S.getLast? = some b
  unv : ∀ x ∈ S, Inside n t x ∧ ¬ V x
  later : ∀ a x r, S = a ++ x :: r → r ≠ [] → ∃ p, parentOf t x = some p ∧ p ∈ r
  kid : ∀ x ∈ S, x ≠ b → ∃ c, ChildOf n (parentOf t) c x
  marked : ∀ x ∈ S, x ≠ b → ∀ p, parentOf t x = some p →
    ((∃ c, ChildOf n (parentOf t) c x ∧ V c) ∨ M x) → M p
  mark : ∀ x, M x → V x ∨ x ∈ S
  fresh : ∀ x, ¬ V x → x ∉ S → ∀ c, ChildOf n (parentOf t) c x → ¬ V c

variable {V M : Nat → Prop} {S : List Nat} {b : Nat}

/-- Every element but the last has its parent in the stack. -/
theorem StackInv.parent (h : StackInv n t V M S b) {x : Nat} (hx : x ∈ S) (hb : x ≠ b) :
    ∃ p, parentOf t x = some p ∧ p ∈ S := by
  obtain ⟨a, r, rfl⟩ := List.append_of_mem hx
  have hr : r ≠ [] := by
    rintro rfl
    have := h.last
    rw [List.getLast?_append] at this
    simp at this
    exact hb this
  obtain ⟨p, h1, h2⟩ := h.later a x r rfl hr
  exact ⟨p, h1, by simp [h2]⟩

/-- The bottom is the largest element. -/
theorem StackInv.le (hf : Forest n (parentOf t)) (h : StackInv n t V M S b) {x : Nat} (hx : x ∈ S) : x ≤ b := by
  obtain ⟨k, hk⟩ : ∃ k, n - x = k := ⟨_, rfl⟩
  induction k using Nat.strongRecOn generalizing x with
  | _ k ih =>
    by_cases hb : x = b
    · omega
    · obtain ⟨p, h1, h2⟩ := h.parent hx hb
      have hxn := (h.unv x hx).1.1
      have h3 := hf x p hxn h1
      have := ih (n - p) (by omega) h2 rfl
      omega

theorem StackInv.start {u : Nat} (hu : Inside n t u) (huv : ¬ V u)
    (hdown : ∀ c p, ChildOf n (parentOf t) c p → V p → V c)
    (hup : ∀ c p, ChildOf n (parentOf t) c p → V c → V p) (hmark : ∀ x, M x → V x) :
    StackInv n t V M [u] u := by
  refine ⟨hdown, by simp, rfl, ?_, ?_, ?_, ?_, fun x hx => .inl (hmark x hx), ?_⟩
  · intro x hx
    obtain rfl : x = u := by simpa using hx
    exact ⟨hu, huv⟩
  · intro a x r h hr
    have := congrArg List.length h
    simp at this
    have : r.length = 0 := by omega
    exact absurd (List.length_eq_zero_iff.1 this) hr
  · intro x hx hne
    exact absurd (by simpa using hx) hne
  · intro x hx hne
    exact absurd (by simpa using hx) hne
  · intro x hx _ c hc hv
    exact hx (hup c x hc hv)

/-- The top's children are not in the stack. -/
theorem StackInv.top_kids (hf : Forest n (parentOf t)) {k : Nat} (h : StackInv n t V M (k :: S) b) {c : Nat}
    (hc : ChildOf n (parentOf t) c k) : c ∉ k :: S := by
  intro hm
  have hck := hf c k hc.1 hc.2
  have hkb := h.le hf (List.mem_cons_self (a := k) (l := S))
  rcases List.mem_cons.1 hm with rfl | hm
  · omega
  · obtain ⟨a, r, rfl⟩ := List.append_of_mem hm
    have hcb : c ≠ b := by omega
    have hr : r ≠ [] := by
      rintro rfl
      have := h.last
      rw [← List.cons_append, List.getLast?_append] at this
      simp at this
      exact hcb this
    obtain ⟨p, h1, h2⟩ := h.later (k :: a) c r rfl hr
    rw [hc.2] at h1
    cases h1
    have := h.nodup
    rw [List.nodup_cons] at this
    exact this.1 (by simp [h2])

/-- The top is popped and has its parent in the stack. -/
theorem StackInv.pop {k : Nat} (h : StackInv n t V M (k :: S) b) (hS : S ≠ [])
    (hk : ∀ c, ChildOf n (parentOf t) c k → V c) :
    ∃ p, parentOf t k = some p ∧ p ∈ S ∧ M p ∧ StackInv n t (fun x => V x ∨ x = k) M S b := by
  have hnd := List.nodup_cons.1 h.nodup
  have hbS : S.getLast? = some b := by
    have := h.last
    rw [List.getLast?_cons_of_ne_nil hS] at this
    exact this
  have hkb : k ≠ b := by
    rintro rfl
    exact hnd.1 (List.mem_of_getLast? hbS)
  obtain ⟨p, h1, h2⟩ := h.later [] k S rfl hS
  obtain ⟨c, hc⟩ := h.kid k (by simp) hkb
  have hMp : M p := h.marked k (by simp) hkb p h1 (.inl ⟨c, hc, hk c hc⟩)
  refine ⟨p, h1, h2, hMp, ?_, hnd.2, hbS, ?_, ?_, ?_, ?_, ?_, ?_⟩
  · rintro c q hcq (hq | rfl)
    · exact .inl (h.down c q hcq hq)
    · exact .inl (hk c hcq)
  · intro x hx
    have := h.unv x (by simp [hx])
    refine ⟨this.1, ?_⟩
    rintro (hv | rfl)
    · exact this.2 hv
    · exact hnd.1 hx
  · intro a x r he hr
    exact h.later (k :: a) x r (by rw [he]; rfl) hr
  · intro x hx hb
    exact h.kid x (by simp [hx]) hb
  · rintro x hx hb q hq (⟨d, hd, hv | rfl⟩ | hm)
    · exact h.marked x (by simp [hx]) hb q hq (.inl ⟨d, hd, hv⟩)
    · have : x = p := by simpa using hd.2.symm.trans h1
      subst this
      exact h.marked x (by simp [hx]) hb q hq (.inr hMp)
    · exact h.marked x (by simp [hx]) hb q hq (.inr hm)
  · intro x hx
    rcases h.mark x hx with hv | hm
    · exact .inl (.inl hv)
    · rcases List.mem_cons.1 hm with rfl | hm
      · exact .inl (.inr rfl)
      · exact .inr hm
  · rintro x hx hxS d hd (hv | rfl)
    · refine h.fresh x (fun h => hx (.inl h)) ?_ d hd hv
      rw [List.mem_cons]
      rintro (rfl | h)
      · exact hx (.inr rfl)
      · exact hxS h
    · have : x = p := by simpa using hd.2.symm.trans h1
      subst this
      exact hxS h2

/-- The bottom is popped and its parent takes its place. -/
theorem StackInv.pop_last (hf : Forest n (parentOf t)) (hcl : Closed n t) {k p : Nat}
    (h : StackInv n t V M [k] b) (hp : parentOf t k = some p) (hk : ∀ c, ChildOf n (parentOf t) c k → V c) :
    ¬ V p ∧ ¬ M p ∧ StackInv n t (fun x => V x ∨ x = k) (fun x => M x ∨ x = p) [p] p := by
  have hku := h.unv k (by simp)
  have hc : ChildOf n (parentOf t) k p := ⟨hku.1.1, hp⟩
  have hkp := hf k p hku.1.1 hp
  have hVp : ¬ V p := fun hv => hku.2 (h.down k p hc hv)
  refine ⟨hVp, ?_, ?_, by simp, rfl, ?_, ?_, ?_, ?_, ?_, ?_⟩
  · intro hM
    rcases h.mark p hM with hv | hm
    · exact hVp hv
    · have : p = k := by simpa using hm
      omega
  · rintro c q hcq (hq | rfl)
    · exact .inl (h.down c q hcq hq)
    · exact .inl (hk c hcq)
  · intro x hx
    obtain rfl : x = p := by simpa using hx
    refine ⟨hcl k x hc, ?_⟩
    rintro (hv | rfl)
    · exact hVp hv
    · omega
  · intro a x r he hr
    have := congrArg List.length he
    simp at this
    have : r.length = 0 := by omega
    exact absurd (List.length_eq_zero_iff.1 this) hr
  · intro x hx hne
    exact absurd (by simpa using hx) hne
  · intro x hx hne
    exact absurd (by simpa using hx) hne
  · rintro x (hm | rfl)
    · rcases h.mark x hm with hv | hx
      · exact .inl (.inl hv)
      · exact .inl (.inr (by simpa using hx))
    · exact .inr (by simp)
  · rintro x hx hxS c hcx (hv | rfl)
    · refine h.fresh x (fun h => hx (.inl h)) ?_ c hcx hv
      simp only [List.mem_singleton]
      rintro rfl
      exact hx (.inr rfl)
    · have : x = p := by simpa using hcx.2.symm.trans hp
      subst this
      exact hxS (by simp)

/-- A leaf below the element `k` is visited. -/
theorem StackInv.leaf {k c : Nat} {M' : Nat → Prop} (h : StackInv n t V M S b) (hkS : k ∈ S)
    (hc : ChildOf n (parentOf t) c k) (hcS : c ∉ S)
    (hk : ∀ d, ChildOf n (parentOf t) d c → V d) (hmono : ∀ x, M x → M' x)
    (hnew : ∀ x, M' x → M x ∨ x ∈ S) (hMk : M' k)
    (hup : ∀ x ∈ S, x ≠ b → M' x → ∀ p, parentOf t x = some p → M' p) :
    StackInv n t (fun x => V x ∨ x = c) M' S b := by
  refine ⟨?_, h.nodup, h.last, ?_, h.later, h.kid, ?_, ?_, ?_⟩
  · rintro d q hdq (hq | rfl)
    · exact .inl (h.down d q hdq hq)
    · exact .inl (hk d hdq)
  · intro x hx
    have := h.unv x hx
    refine ⟨this.1, ?_⟩
    rintro (hv | rfl)
    · exact this.2 hv
    · exact hcS hx
  · rintro x hx hb q hq (⟨d, hd, hv | rfl⟩ | hm)
    · exact hmono q (h.marked x hx hb q hq (.inl ⟨d, hd, hv⟩))
    · have : x = k := by simpa using hd.2.symm.trans hc.2
      subst this
      exact hup x hx hb hMk q hq
    · exact hup x hx hb hm q hq
  · intro x hx
    rcases hnew x hx with hm | hm
    · rcases h.mark x hm with hv | hs
      · exact .inl (.inl hv)
      · exact .inr hs
    · exact .inr hm
  · rintro x hx hxS d hd (hv | rfl)
    · exact h.fresh x (fun h => hx (.inl h)) hxS d hd hv
    · have : x = k := by simpa using hd.2.symm.trans hc.2
      subst this
      exact hxS hkS

/-- A child of the element `k` is pushed. -/
theorem StackInv.push {k c : Nat} (h : StackInv n t V M S b) (hkS : k ∈ S)
    (hc : ChildOf n (parentOf t) c k) (hcS : c ∉ S) (hcV : ¬ V c)
    (hkid : ∃ d, ChildOf n (parentOf t) d c) : StackInv n t V M (c :: S) b := by
  have hS : S ≠ [] := List.ne_nil_of_mem hkS
  refine ⟨h.down, List.nodup_cons.2 ⟨hcS, h.nodup⟩, ?_, ?_, ?_, ?_, ?_, ?_, ?_⟩
  · rw [List.getLast?_cons_of_ne_nil hS]; exact h.last
  · intro x hx
    rcases List.mem_cons.1 hx with rfl | hx
    · exact ⟨inside_of_child hc, hcV⟩
    · exact h.unv x hx
  · intro a x r he hr
    cases a with
    | nil =>
      simp only [List.nil_append, List.cons.injEq] at he
      obtain ⟨rfl, rfl⟩ := he
      exact ⟨k, hc.2, hkS⟩
    | cons y a =>
      simp only [List.cons_append, List.cons.injEq] at he
      exact h.later a x r he.2 hr
  · intro x hx hb
    rcases List.mem_cons.1 hx with rfl | hx
    · exact hkid
    · exact h.kid x hx hb
  · intro x hx hb q hq hor
    rcases List.mem_cons.1 hx with rfl | hx
    · rcases hor with ⟨d, hd, hv⟩ | hm
      · exact absurd hv (h.fresh x hcV hcS d hd)
      · rcases h.mark x hm with hv | hs
        · exact absurd hv hcV
        · exact absurd hs hcS
    · exact h.marked x hx hb q hq hor
  · intro x hx
    rcases h.mark x hx with hv | hs
    · exact .inl hv
    · exact .inr (by simp [hs])
  · intro x hx hxS
    exact h.fresh x hx (fun hs => hxS (by simp [hs]))

theorem StackInv.congr {V' M' : Nat → Prop} (h : StackInv n t V M S b) (hV : ∀ x, V x ↔ V' x)
    (hM : ∀ x, M x ↔ M' x) : StackInv n t V' M' S b := by
  obtain rfl : V = V' := funext fun x => propext (hV x)
  obtain rfl : M = M' := funext fun x => propext (hM x)
  exact h

end Verif.Split
