import Mathlib.Data.List.Basic

/-!
# Specification: cutting the levels into windows

Independent of every algorithm.
-/

namespace Verif

/-- The numbers `bound[0], ..., bound[cnt]` cut the levels `0, ..., levels - 1` into `cnt` non-empty
windows `bound[w] ≤ level < bound[w + 1]`.  The last number may lie beyond the last level. -/
structure LevelCuts (levels cnt : Nat) (bound : List Int) : Prop where
  cnt_pos : 0 < cnt
  len : cnt < bound.length
  first : bound.getD 0 0 = 0
  inc : ∀ w, w < cnt → bound.getD w 0 < bound.getD (w + 1) 0
  inner : ∀ w, w < cnt → bound.getD w 0 < levels
  last : (levels : Int) ≤ bound.getD cnt 0

end Verif
