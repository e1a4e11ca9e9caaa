import Verif.Model.Utils
import Verif.ResLemmas

/-! # Property C33: overflow-safe size arithmetic -/

namespace Verif.Util
open Res

/-- **C33.** `add_size_t`: exact sum and unchanged flag if it fits, otherwise `0` and the flag is
cleared; `0` once the flag is false. -/
theorem C33_add_exact {a b : Nat} (ha : a < 2 ^ 64) (hb : b < 2 ^ 64) (f : Bool) :
    addSizeT a b f = if f = true ∧ a + b < 2 ^ 64 then (a + b, true) else (0, false) := by
  unfold addSizeT
  have hW : (2 : Nat) ^ 64 = W := rfl
  rw [hW] at ha hb ⊢
  cases f with
  | false => simp
  | true =>
    by_cases h : a + b < W
    · rw [Nat.mod_eq_of_lt h, if_pos ⟨rfl, h⟩]; simp
    · have : (a + b) % W = a + b - W := by
        rw [Nat.mod_eq_sub_mod (by omega), Nat.mod_eq_of_lt (by omega)]
      have h1 : ¬ (a + b - W ≥ a) := by omega
      rw [this, if_neg (by simp [h])]
      dsimp only
      rw [decide_eq_false h1]
      rfl

/-- What the caller may conclude from a result `(r, f')` for the exact product `P`. -/
def MulPost (P : Nat) (o : Nat × Bool) : Prop := o.2 = decide (P < W) ∧ (o.2 = true → o.1 = P)

theorem log2_half {k : Nat} (h : k / 2 ≠ 0) : Nat.log2 (k / 2) < Nat.log2 k := by
  conv_rhs => rw [Nat.log2_def]
  rw [if_pos (by omega)]
  omega

/-- Invariant of the loop in `mult_size_t`. -/
def MulInv (P : Nat) (s : Mul) : Prop :=
  if s.okk then s.p + s.a * s.k = P ∧ s.p < W ∧ s.a < W else W ≤ P

theorem multStep_wp {P : Nat} {s : Mul} (h : MulInv P s) :
    wp (multStep s) (Ctl.post (fun s' => MulInv P s' ∧
      Nat.log2 s'.k < Nat.log2 s.k) (MulPost P)) := by
  obtain ⟨a, k, p, f⟩ := s
  unfold MulInv at h
  cases f with
  | false =>
    simp only [Bool.false_eq_true, if_false] at h
    simp [multStep, MulPost]
    omega
  | true =>
    simp only [if_true] at h
    obtain ⟨h1, h2, h3⟩ := h
    have hk : k = 2 * (k / 2) + k % 2 := by omega
    generalize hh : k / 2 = q at hk
    have hkm : k % 2 = 0 ∨ k % 2 = 1 := by omega
    -- the sum
    have hp : ∃ p' f', (if k % 2 = 1 then (p + a) % W else p) = p' ∧
        (if k % 2 = 1 then decide ((if k % 2 = 1 then (p + a) % W else p) ≥ a) else true) = f' ∧
        (if f' = true then p' + 2 * a * q = P ∧ p' < W else W ≤ P) := by
      refine ⟨_, _, rfl, rfl, ?_⟩
      rcases hkm with e | e
      · rw [e] at hk
        simp only [e]
        simp
        refine ⟨?_, h2⟩
        rw [← h1, hk]; ring
      · rw [e] at hk
        simp only [e, if_true]
        by_cases hov : p + a < W
        · rw [Nat.mod_eq_of_lt hov]
          have : decide (p + a ≥ a) = true := by simp
          rw [this, if_pos rfl]
          refine ⟨?_, hov⟩
          rw [← h1, hk]; ring
        · have e2 : (p + a) % W = p + a - W := by
            rw [Nat.mod_eq_sub_mod (by omega), Nat.mod_eq_of_lt (by omega)]
          have : decide ((p + a) % W ≥ a) = false := by rw [e2]; simp; omega
          rw [this]
          simp only [Bool.false_eq_true, if_false]
          rw [← h1, hk]
          have : a * (2 * q + 1) = 2 * a * q + a := by ring
          rw [this]; omega
    obtain ⟨p', f', e1, e2, e3⟩ := hp
    unfold multStep
    simp only [if_true, hh]
    rw [e2, e1]
    by_cases hq : q = 0
    · subst hq
      simp only [if_true, wp_ok, Ctl.post_brk, MulPost]
      cases f' with
      | true =>
        simp only [if_true, Nat.mul_zero, Nat.add_zero] at e3
        rw [← e3.1]; simp [e3.2]
      | false => simp only [Bool.false_eq_true, if_false] at e3; simp; omega
    · rw [if_neg hq, wp_ok, Ctl.post_next]
      refine ⟨?_, by dsimp only; rw [← hh]; exact log2_half (by omega)⟩
      unfold MulInv
      dsimp only
      cases f' with
      | false => simpa using e3
      | true =>
        simp only [if_true] at e3
        have hge : 2 * a ≤ P := by
          rw [← e3.1]
          have : 2 * a * 1 ≤ 2 * a * q := Nat.mul_le_mul_left _ (by omega)
          omega
        by_cases hov : a + a < W
        · rw [Nat.mod_eq_of_lt hov]
          have : decide (a + a ≥ a) = true := by simp
          rw [this]
          simp only [Bool.and_self, if_true]
          refine ⟨?_, e3.2, hov⟩
          rw [← e3.1]; ring
        · have e4 : (a + a) % W = a + a - W := by
            rw [Nat.mod_eq_sub_mod (by omega), Nat.mod_eq_of_lt (by omega)]
          have : decide ((a + a) % W ≥ a) = false := by rw [e4]; simp; omega
          rw [this]
          simp only [Bool.and_false, Bool.false_eq_true, if_false]
          omega

/-- **C33 (partial).** `mult_size_t` finishes; the flag is cleared exactly when the product does not
fit in `size_t` (or was already false), and while the flag is set the result is the exact product;
when the flag was false on entry the result is `0`.

Missing: "otherwise return 0".  That is false for this code, see `C33_mult_overflow_not_zero`. -/
theorem C33_mult_partial {a k : Nat} (ha : a < 2 ^ 64) (hk : k < 2 ^ 64) (f : Bool) :
    ∃ r f', multSizeT a k f = ok (r, f') ∧
      f' = (f && decide (a * k < 2 ^ 64)) ∧ (f' = true → r = a * k) ∧ (f = false → r = 0) := by
  cases f with
  | false =>
    refine ⟨0, false, rfl, by simp, by simp, by simp⟩
  | true =>
    have hl : Nat.log2 k < 66 := by
      by_cases h0 : k = 0
      · subst h0; decide
      · have := (Nat.log2_lt h0).2 hk
        omega
    have h := loopF_wp (f := multStep) (fun s => MulInv (a * k) s) (fun s => Nat.log2 s.k)
      (Q := MulPost (a * k)) (fun s hs => multStep_wp hs) 66 ⟨a, k, 0, true⟩ hl (by
        unfold MulInv; simp only [if_true]; exact ⟨by simp, by decide, ha⟩)
    obtain ⟨⟨r, f'⟩, h1, h2, h3⟩ := wp_iff.1 h
    exact ⟨r, f', h1, by rw [Bool.true_and]; exact h2, h3, by simp⟩

/-- The comment in the source ("if overflow occurs, return 0") does not hold: for
`a = 3 * 2^61` and `k = 3` the flag is cleared but the value `2^61` is returned. -/
theorem C33_mult_overflow_not_zero :
    multSizeT (3 * 2 ^ 61) 3 true = ok (2 ^ 61, false) := by decide

example : multSizeT 123456789 987654321 true = ok (123456789 * 987654321, true) := by decide
example : addSizeT (2 ^ 64 - 1) 1 true = (0, false) := by decide

end Verif.Util
