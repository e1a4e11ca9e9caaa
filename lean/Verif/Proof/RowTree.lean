import Verif.Spec.Fill
import Verif.Spec.Forest

/-!
# Rows of the factor are subtrees of the elimination tree
-/

namespace Verif
open Relation

variable {E : Nat → Nat → Prop} {n : Nat} {par : Nat → Option Nat}

theorem Fill.lt {k i : Nat} (h : Fill E k i) : i < k := by
  cases h <;> assumption

/-- `x` is in the subtree of `j`. -/
def Sub (n : Nat) (par : Nat → Option Nat) (x j : Nat) : Prop := ReflTransGen (ChildOf n par) x j

theorem Sub.refl (x : Nat) : Sub n par x x := ReflTransGen.refl

theorem Sub.trans {x y z : Nat} (h : Sub n par x y) (h' : Sub n par y z) : Sub n par x z :=
  ReflTransGen.trans h h'

theorem Sub.le (hf : Forest n par) {x y : Nat} (h : Sub n par x y) : x ≤ y := by
  induction h with
  | refl => exact Nat.le_refl _
  | tail _ h ih => exact Nat.le_trans ih (Nat.le_of_lt (hf _ _ h.1 h.2).1)

theorem Sub.lt_n (hf : Forest n par) {x y : Nat} (h : Sub n par x y) (hx : x < n) : y < n := by
  induction h with
  | refl => exact hx
  | tail _ h _ => exact (hf _ _ h.1 h.2).2

theorem Sub.lt_left (hf : Forest n par) {x y : Nat} (h : Sub n par x y) (hy : y < n) : x < n :=
  Nat.lt_of_le_of_lt (h.le hf) hy

theorem Sub.antisymm (hf : Forest n par) {x y : Nat} (h : Sub n par x y) (h' : Sub n par y x) :
    x = y := Nat.le_antisymm (h.le hf) (h'.le hf)

/-- The first step up. -/
theorem Sub.step {x y : Nat} (h : Sub n par x y) (hne : x ≠ y) :
    ∃ p, x < n ∧ par x = some p ∧ Sub n par p y := by
  rcases ReflTransGen.cases_head h with h | ⟨c, h1, h2⟩
  · exact absurd h hne
  · exact ⟨c, h1.1, h1.2, h2⟩

theorem Sub.head {x p y : Nat} (hx : x < n) (hp : par x = some p) (h : Sub n par p y) :
    Sub n par x y := ReflTransGen.head ⟨hx, hp⟩ h

theorem Sub.parent {x p : Nat} (hx : x < n) (hp : par x = some p) : Sub n par x p :=
  Sub.head hx hp (Sub.refl _)

/-- Ancestors of one node are comparable. -/
theorem Sub.total {x y z : Nat} (h : Sub n par x y) (h' : Sub n par x z) :
    Sub n par y z ∨ Sub n par z y := by
  induction h using ReflTransGen.head_induction_on with
  | refl => exact Or.inl h'
  | head hab hbc ih =>
    rename_i a b
    by_cases e : a = z
    · subst e; exact Or.inr (ReflTransGen.head hab hbc)
    · obtain ⟨p, h1, h2, h3⟩ := h'.step e
      rw [hab.2] at h2
      obtain rfl := Option.some.inj h2
      exact ih h3

theorem Sub.total_le (hf : Forest n par) {x y z : Nat} (h : Sub n par x y) (h' : Sub n par x z)
    (hyz : y ≤ z) : Sub n par y z := by
  rcases h.total h' with h | h
  · exact h
  · have := h.le hf
    obtain rfl : y = z := by omega
    exact Sub.refl _

theorem IsEtree.forest (h : IsEtree E n par) : Forest n par := by
  intro j p hj hp
  have := h j hj
  rw [hp] at this
  exact ⟨this.2.1.lt, this.1⟩

theorem IsEtree.fill (h : IsEtree E n par) {j p : Nat} (hj : j < n) (hp : par j = some p) :
    Fill E p j := by
  have := h j hj
  rw [hp] at this
  exact this.2.1

/-- One step up from a non-zero of row `k`. -/
theorem IsEtree.step (h : IsEtree E n par) {k i : Nat} (hk : k < n) (hf : Fill E k i) :
    ∃ p, par i = some p ∧ p ≤ k ∧ (p ≠ k → Fill E k p) := by
  have hi : i < n := Nat.lt_trans hf.lt hk
  have := h i hi
  cases hp : par i with
  | none => rw [hp] at this; exact absurd hf (this k hk)
  | some p =>
    rw [hp] at this
    refine ⟨p, rfl, this.2.2 k hf, ?_⟩
    intro hne
    have := this.2.2 k hf
    exact Fill.fill (h.fill hi hp).lt (by omega) hf (h.fill hi hp)

/-- The non-zeros of row `k` are descendants of `k`. -/
theorem IsEtree.sub (h : IsEtree E n par) {k i : Nat} (hk : k < n) (hf : Fill E k i) :
    Sub n par i k := by
  generalize hm : k - i = m
  induction m using Nat.strongRecOn generalizing i with
  | ind m ih =>
    obtain ⟨p, h1, h2, h3⟩ := h.step hk hf
    have hi : i < n := Nat.lt_trans hf.lt hk
    have hip := (h.fill hi h1).lt
    by_cases e : p = k
    · subst e; exact Sub.parent hi h1
    · exact Sub.head hi h1 (ih (k - p) (by omega) (h3 e) rfl)

/-- Row `k` of the factor consists of the nodes on the paths from the entries of row `k` of the
matrix to `k`. -/
theorem IsEtree.row (h : IsEtree E n par) {k j : Nat} (hk : k < n) :
    Fill E k j ↔ j < k ∧ ∃ i, i < k ∧ E k i ∧ Sub n par i j := by
  constructor
  · intro hf
    refine ⟨hf.lt, ?_⟩
    induction hf with
    | entry h1 h2 => exact ⟨_, h1, h2, Sub.refl _⟩
    | fill h1 h2 h3 h4 ih1 ih2 =>
      obtain ⟨i, g1, g2, g3⟩ := ih1 hk
      exact ⟨i, g1, g2, g3.trans (h.sub (by omega) h4)⟩
  · rintro ⟨hj, i, hi, he, hs⟩
    have key : ∀ y, ReflTransGen (ChildOf n par) i y → y < k → Fill E k y := by
      intro y hy
      induction hy with
      | refl => intro _; exact Fill.entry hi he
      | tail _ hbc ih =>
        intro hc
        have hbc' := (h.forest _ _ hbc.1 hbc.2).1
        exact Fill.fill hbc' hc (ih (by omega)) (h.fill hbc.1 hbc.2)
    exact key j hs hj

end Verif
