import Verif.Proof.ExecRow
import Verif.Spec.Solve
import Mathlib.Algebra.Field.Basic
import Mathlib.Tactic.Ring
import Mathlib.Tactic.FieldSimp
import Mathlib.Algebra.BigOperators.Group.List.Basic

namespace Verif.Exec
open Res

variable {K : Type} [Field K]

theorem foldlM_field (xs : List K) : ∀ (l : List (Nat × K)) (a acc : K),
    l.foldlM (fun acc e => do
      let y ← xs[e.1]?
      pure ((fieldArith K).upd acc e.2 y)) a = some acc →
    acc = a - (l.map (fun e => e.2 * xs.getD e.1 0)).sum := by
  intro l
  induction l with
  | nil => intro a acc h; simp at h; simp [h]
  | cons e l ih =>
    intro a acc h
    rw [List.foldlM_cons] at h
    cases hx : xs[e.1]? with
    | none => rw [hx] at h; simp at h
    | some y =>
      rw [hx] at h
      have := ih _ _ h
      rw [this, List.map_cons, List.sum_cons, List.getD_eq_getElem?_getD, hx]
      simp only [fieldArith, Option.getD_some]
      ring

omit [Field K] in
theorem row_split {m : Mat K} {r : Nat} {d : K} (h : (m.row r).getLast? = some (r, d)) :
    m.row r = m.off r ++ [(r, d)] := by
  have hne : m.row r ≠ [] := by intro h'; rw [h'] at h; simp at h
  rw [List.getLast?_eq_some_getLast hne] at h
  rw [Mat.off]
  conv_lhs => rw [← List.dropLast_append_getLast hne]
  simp only [Option.some.injEq] at h
  rw [h]

theorem mulRow_split {m : Mat K} {r : Nat} {d : K} (h : (m.row r).getLast? = some (r, d))
    (xs : List K) :
    m.mulRow xs r = ((m.off r).map (fun e => e.2 * xs.getD e.1 0)).sum + d * xs.getD r 0 := by
  rw [Mat.mulRow, row_split h]; simp

theorem Solution.mulRow {m : Mat K} {b xs : List K}
    (hS : m.Solution (fieldArith K) b xs) (hb : b.length = m.n)
    {r : Nat} {d : K} (hr : r < m.n) (hd : (m.row r).getLast? = some (r, d)) (hd0 : d ≠ 0) :
    m.mulRow xs r = b.getD r 0 := by
  obtain ⟨v, hv, he⟩ := hS.2 r hr
  rw [mulRow_split hd, List.getD_eq_getElem?_getD, hv]
  unfold Mat.rowEq at he
  have hbr : r < b.length := by omega
  rw [List.getElem?_eq_getElem hbr] at he
  simp only [Option.bind_eq_bind, Option.bind_some] at he
  rw [Option.bind_eq_some_iff] at he
  obtain ⟨acc, ha, he⟩ := he
  rw [hd] at he
  simp only [Option.bind_some, Option.pure_def, Option.some.injEq] at he
  have := foldlM_field xs _ _ _ ha
  rw [List.getD_eq_getElem?_getD, List.getElem?_eq_getElem hbr, ← he, this]
  simp only [fieldArith, Option.getD_some]
  field_simp
  ring

theorem mul_unique {m : Mat K} (hm : m.LowerCsr)
    (hd : ∀ r d, r < m.n → (m.row r).getLast? = some (r, d) → d ≠ 0) {b xs ys : List K}
    (hx : ∀ r, r < m.n → m.mulRow xs r = b.getD r 0)
    (hy : ∀ r, r < m.n → m.mulRow ys r = b.getD r 0) :
    ∀ r, r < m.n → xs.getD r 0 = ys.getD r 0 := by
  intro r
  induction r using Nat.strong_induction_on with
  | _ r ih =>
    intro hr
    obtain ⟨d, hdr⟩ := hm.diag r hr
    have hd0 := hd r d hr hdr
    have h1 := hx r hr
    have h2 := hy r hr
    rw [mulRow_split hdr] at h1 h2
    have hoff : (m.off r).map (fun e => e.2 * xs.getD e.1 0)
        = (m.off r).map (fun e => e.2 * ys.getD e.1 0) := by
      apply List.map_congr_left
      intro e he
      have := hm.lower r hr e he
      rw [ih e.1 this (by omega)]
    rw [hoff, ← h2] at h1
    exact mul_left_cancel₀ hd0 (add_left_cancel h1)

end Verif.Exec
