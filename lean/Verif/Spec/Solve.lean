import Verif.Spec.Mat
import Mathlib.Algebra.Field.Basic

/-! # Specification: linear systems over a field -/

namespace Verif

/-- Exact field arithmetic for the two statements of the solvers. -/
def fieldArith (K : Type) [Field K] : Arith K := ⟨fun a l y => a - l * y, fun a d => a / d⟩

/-- Row `r` of the matrix-vector product `m * xs` (`m` in compressed rows): the sum of
value * unknown over the stored entries of the row. -/
def Mat.mulRow {K : Type} [Field K] (m : Mat K) (xs : List K) (r : Nat) : K :=
  ((m.row r).map (fun e => e.2 * xs.getD e.1 0)).sum

end Verif
