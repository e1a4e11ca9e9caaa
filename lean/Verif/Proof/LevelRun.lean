import Verif.Proof.Ic0Par

/-! # Level loops whose threads have independent instructions -/

namespace Verif.Mach
open Res

variable {I R M : Type}

/-- If the threads of every level are independent and one after the other lead from state `st l` to `st (l + 1)`,
then every interleaving of the level loop does. -/
theorem levelLoop_run {step : I → R → M → Res (R × M)} {r0 : R} {levels : Nat} {ptr : List Nat}
    {thread : Nat → Res (List I)} {codes : Nat → List (List I)} {st : Nat → M}
    (hthr : ∀ l, l < levels → ∃ lo hi, rd ptr l = ok lo ∧ rd ptr (l + 1) = ok hi ∧ parCodes lo hi thread = ok (codes l))
    (hind : ∀ l, l < levels → ∀ (s t : Nat), s ≠ t → ∀ (c c' : List I), (codes l)[s]? = some c → (codes l)[t]? = some c' →
      ∀ i ∈ c, ∀ j ∈ c', Indep step i j)
    (hseq : ∀ l, l < levels → seqAll step r0 (codes l) (st l) = ok (st (l + 1))) :
    (∀ sch, levelLoop step r0 levels ptr thread sch (st 0) = ok (st levels) ∨
      levelLoop step r0 levels ptr thread sch (st 0) = nofuel) ∧
    ∃ sch, levelLoop step r0 levels ptr thread sch (st 0) = ok (st levels) := by
  constructor
  · intro sch
    have : wpl (levelLoop step r0 levels ptr thread sch (st 0)) (fun y => y = st levels) := by
      unfold levelLoop
      refine forRange_wpl (fun l x => x = st l) (Nat.zero_le levels) rfl ?_
      intro l x _ hl hx
      subst hx
      obtain ⟨lo, hi, h1, h2, h3⟩ := hthr l hl
      rw [h1, h2]
      simp only [ok_bind]
      rw [h3]
      simp only [ok_bind]
      rcases parFor_seq step r0 _ (sch l) _ _ (hind l hl) (hseq l hl) with h | h
      · rw [h, wpl_ok]
      · rw [h]; trivial
    rcases wpl_iff.1 this with h | ⟨y, h, rfl⟩
    · exact .inr h
    · exact .inl h
  · have hex : ∀ l, ∃ s : List Nat, l < levels → parFor step r0 (codes l) s (st l) = ok (st (l + 1)) := by
      intro l
      by_cases hl : l < levels
      · obtain ⟨s, hs⟩ := Ic0.parFor_exists step r0 _ _ _ (hind l hl) (hseq l hl)
        exact ⟨s, fun _ => hs⟩
      · exact ⟨[], fun h => absurd h hl⟩
    choose sch hsch using hex
    refine ⟨sch, ?_⟩
    have : wp (levelLoop step r0 levels ptr thread sch (st 0)) (fun y => y = st levels) := by
      unfold levelLoop
      refine forRange_wp (fun l x => x = st l) (Nat.zero_le levels) rfl ?_
      intro l x _ hl hx
      subst hx
      obtain ⟨lo, hi, h1, h2, h3⟩ := hthr l hl
      rw [h1, h2]
      simp only [ok_bind]
      rw [h3]
      simp only [ok_bind]
      rw [hsch l hl, wp_ok]
    obtain ⟨y, h1, rfl⟩ := wp_iff.1 this
    exact h1

/-- The code does what `f` does, whatever the registers contain. -/
def Runs (step : I → R → M → Res (R × M)) (c : List I) (f : M → Res M) : Prop :=
  ∀ r m, (runCode step c r m >>= fun x => ok x.2) = f m

variable {step : I → R → M → Res (R × M)}

theorem Runs.nil : Runs step [] ok := fun _ _ => rfl

theorem Runs.append {c c' : List I} {f f' : M → Res M} (h : Runs step c f)
    (h' : Runs step c' f') : Runs step (c ++ c') (fun m => f m >>= f') := by
  intro r m
  show _ = f m >>= f'
  rw [Ic0.runCode_append, bind_assoc', ← h r m, bind_assoc']
  simp only [ok_bind]
  congr 1
  funext x
  exact h' x.1 x.2

theorem Runs.range {c : Nat → List I} {f : Nat → M → Res M} {lo hi : Nat}
    (h : ∀ k, lo ≤ k → k < hi → Runs step (c k) (f k)) :
    Runs step ((List.range' lo (hi - lo)).flatMap c) (forRange lo hi f) := by
  have key : ∀ n lo, lo + n ≤ hi ∨ n = 0 → (∀ k, lo ≤ k → k < hi → Runs step (c k) (f k)) →
      Runs step ((List.range' lo n).flatMap c) (forN n lo f) := by
    intro n
    induction n with
    | zero => intro lo _ _; exact Runs.nil
    | succ n ih =>
      intro lo hl h
      rw [List.range'_succ, List.flatMap_cons]
      have h1 := (h lo (by omega) (by omega)).append (ih (lo + 1) (by omega) (fun k h1 h2 => h k (by omega) h2))
      exact h1
  exact key (hi - lo) lo (by omega) h

theorem Runs.each {c : Nat → List I} {f : Nat → M → Res M} {l : List Nat}
    (h : ∀ k ∈ l, Runs step (c k) (f k)) : Runs step (l.flatMap c) (forEach l f) := by
  induction l with
  | nil => exact Runs.nil
  | cons k l ih =>
    rw [List.flatMap_cons]
    exact (h k (by simp)).append (ih fun k hk => h k (by simp [hk]))

theorem seqAll_each {c : Nat → List I} {f : Nat → M → Res M} {r0 : R} (parts : List (List Nat))
    (h : ∀ P ∈ parts, ∀ k ∈ P, Runs step (c k) (f k)) :
    ∀ x, seqAll step r0 (parts.map fun P => P.flatMap c) x = forEach parts.flatten f x := by
  induction parts with
  | nil => intro x; rfl
  | cons P parts ih =>
    intro x
    rw [List.map_cons, seqAll, List.flatten_cons, forEach_append]
    have h1 : Runs step (P.flatMap c) (forEach P f) := Runs.each (fun k hk => h P (by simp) k hk)
    rw [← h1 r0 x, bind_assoc']
    congr 1
    funext t
    exact ih (fun Q hQ => h Q (by simp [hQ])) t.2

end Verif.Mach
