import Verif.Proof.Solve
import Verif.Props.Exec
import Mathlib.Algebra.Field.Rat

/-! # C08: the serial solver solves the linear system -/

namespace Verif
open Res Exec

/-- **C08.** Over a field, for a lower triangular CSR matrix with non-zero diagonal, `sptrsv_csr`
turns the right-hand side `b` into the one and only solution of `L x = b`. -/
theorem C08_serial_solve_correct {K : Type} [Field K] {m : Mat K} (hm : m.LowerCsr)
    (hd : ∀ r d, r < m.n → (m.row r).getLast? = some (r, d) → d ≠ 0)
    {b : List K} (hb : b.length = m.n) :
    ∃ xs, sptrsvCsr (fieldArith K) m.n m.p m.i m.x b = ok xs ∧ xs.length = m.n ∧
      (∀ r, r < m.n → m.mulRow xs r = b.getD r 0) ∧
      ∀ ys : List K, ys.length = m.n → (∀ r, r < m.n → m.mulRow ys r = b.getD r 0) → ys = xs := by
  obtain ⟨xs, hS⟩ := exists_solution (A := fieldArith K) hm hb
  have hx : ∀ r, r < m.n → m.mulRow xs r = b.getD r 0 := by
    intro r hr
    obtain ⟨d, hdr⟩ := hm.diag r hr
    exact Solution.mulRow hS hb hr hdr (hd r d hr hdr)
  refine ⟨xs, sptrsvCsr_spec hm hb hS, hS.1, hx, fun ys hl hy => ?_⟩
  have := mul_unique hm hd hy hx
  apply List.ext_getElem?
  intro r
  by_cases hr : r < m.n
  · have h := this r hr
    rw [List.getD_eq_getElem?_getD, List.getD_eq_getElem?_getD,
      List.getElem?_eq_getElem (by omega), List.getElem?_eq_getElem (by rw [hS.1]; exact hr)] at h
    rw [List.getElem?_eq_getElem (by omega), List.getElem?_eq_getElem (by rw [hS.1]; exact hr)]
    simpa using h
  · rw [List.getElem?_eq_none (by omega), List.getElem?_eq_none (by rw [hS.1]; omega)]

/-- A rational lower triangular matrix: rows `[2]`, `[3 4]`. -/
def exMatQ : Mat ℚ := ⟨2, [0, 1, 3], [0, 0, 1], [2, 3, 4]⟩

/-- The hypotheses of C08 hold for `exMatQ`, with solution `[1/2, 1/8]` for `b = [1, 2]`. -/
example : exMatQ.LowerCsr ∧
    (∀ r d, r < exMatQ.n → (exMatQ.row r).getLast? = some (r, d) → d ≠ 0) ∧
    exMatQ.mulRow [1/2, 1/8] 0 = 1 ∧ exMatQ.mulRow [1/2, 1/8] 1 = 2 := by
  refine ⟨⟨⟨⟨by decide, by decide, by decide, by decide, by decide⟩, by decide⟩, ?_, ?_⟩, ?_, ?_, ?_⟩
  · intro r hr
    have : r < 2 := hr
    have : r = 0 ∨ r = 1 := by omega
    rcases this with rfl | rfl
    · exact ⟨2, rfl⟩
    · exact ⟨4, rfl⟩
  · intro r hr e he
    have : r < 2 := hr
    have : r = 0 ∨ r = 1 := by omega
    rcases this with rfl | rfl
    · simp [exMatQ, Mat.off, Mat.row, Mat.pat, Csc.ptr] at he
    · simp [exMatQ, Mat.off, Mat.row, Mat.pat, Csc.ptr] at he
      simp [he]
  · intro r d hr hd
    have : r < 2 := hr
    have : r = 0 ∨ r = 1 := by omega
    rcases this with rfl | rfl
    · simp [exMatQ, Mat.row, Mat.pat, Csc.ptr] at hd
      subst hd; decide
    · simp [exMatQ, Mat.row, Mat.pat, Csc.ptr] at hd
      subst hd; decide
  · simp [exMatQ, Mat.mulRow, Mat.row, Mat.pat, Csc.ptr]
  · simp [exMatQ, Mat.mulRow, Mat.row, Mat.pat, Csc.ptr]; norm_num

end Verif
