import Verif.ResLemmas

/-!
Weakest precondition with a mode: `wpm true = wp` (total), `wpm false = wpl` (an incomplete
execution, `nofuel`, is allowed).  Used to prove both statements at once.
-/

namespace Verif.Res

def wpm {α : Type _} (t : Bool) (x : Res α) (Q : α → Prop) : Prop :=
  match x with
  | ok a => Q a
  | nofuel => t = false
  | _ => False

variable {α β : Type _} {t : Bool}

@[simp] theorem wpm_ok (a : α) (Q : α → Prop) : wpm t (ok a) Q = Q a := rfl

@[simp] theorem wpm_bind (x : Res α) (f : α → Res β) (Q : β → Prop) :
    wpm t (x >>= f) Q = wpm t x (fun a => wpm t (f a) Q) := by
  cases x <;> rfl

theorem wpm_mono {x : Res α} {Q R : α → Prop} (h : wpm t x Q) (hi : ∀ a, Q a → R a) :
    wpm t x R := by
  cases x <;> simp_all [wpm]

theorem wpm_of_wp {x : Res α} {Q : α → Prop} (h : wp x Q) : wpm t x Q := by
  cases x <;> simp_all [wpm]

theorem wpm_true {x : Res α} {Q : α → Prop} : wpm true x Q ↔ wp x Q := by
  cases x <;> simp [wpm]

theorem wpm_false {x : Res α} {Q : α → Prop} : wpm false x Q ↔ wpl x Q := by
  cases x <;> simp [wpm]

/-- From the liberal statement, and completeness in total mode. -/
theorem wpm_of_wpl {x : Res α} {Q : α → Prop} (h : wpl x Q) (ht : t = true → x ≠ nofuel) :
    wpm t x Q := by
  cases x <;> simp_all [wpm]

end Verif.Res

namespace Verif
open Res

variable {σ : Type _} {t : Bool}

theorem forN_wpm (I : Nat → σ → Prop) {f : Nat → σ → Res σ} (hi : Nat) :
    ∀ (c lo : Nat) (s : σ), lo + c = hi → I lo s →
      (∀ i s, lo ≤ i → i < hi → I i s → wpm t (f i s) (I (i + 1))) →
      wpm t (forN c lo f s) (I hi) := by
  intro c
  induction c with
  | zero =>
    intro lo s h hI _
    simp [forN] at *
    subst h; exact hI
  | succ c ih =>
    intro lo s h hI hstep
    simp only [forN, wpm_bind]
    refine wpm_mono (hstep lo s (le_refl _) (by omega) hI) ?_
    intro a ha
    exact ih (lo + 1) a (by omega) ha (fun i s h1 h2 => hstep i s (by omega) h2)

theorem forRange_wpm (I : Nat → σ → Prop) {lo hi : Nat} {f : Nat → σ → Res σ} {s : σ}
    {Q : σ → Prop} (hle : lo ≤ hi) (h0 : I lo s)
    (hstep : ∀ i s, lo ≤ i → i < hi → I i s → wpm t (f i s) (I (i + 1)))
    (hQ : ∀ s, I hi s → Q s) : wpm t (forRange lo hi f s) Q :=
  wpm_mono (forN_wpm I hi (hi - lo) lo s (by omega) h0 hstep) hQ

theorem whileF_wpm (I : σ → Prop) (m : σ → Nat) {cond : σ → Res Bool}
    {body : σ → Res σ} {Q : σ → Prop}
    (hcond : ∀ s, I s → wp (cond s) (fun b => if b then
      0 < m s ∧ wpm t (body s) (fun s' => I s' ∧ m s' < m s) else Q s)) :
    ∀ (fuel : Nat) (s : σ), m s ≤ fuel → I s → wpm t (whileF fuel cond body s) Q := by
  intro fuel
  induction fuel with
  | zero =>
    intro s hm hI
    simp only [whileF, wpm_bind]
    refine wpm_of_wp (wp_mono (hcond s hI) ?_)
    intro b hb
    cases b
    · simpa using hb
    · simp at hb; omega
  | succ k ih =>
    intro s hm hI
    simp only [whileF, wpm_bind]
    refine wpm_of_wp (wp_mono (hcond s hI) ?_)
    intro b hb
    cases b
    · simpa using hb
    · simp at hb
      simp only [if_true, wpm_bind]
      refine wpm_mono hb.2 ?_
      intro s' hs'
      exact ih s' (by omega) hs'.1

end Verif
