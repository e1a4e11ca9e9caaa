import Verif.ResLemmas

/-! # Counting flags -/

namespace Verif

theorem count_set_true {l : List Bool} {k : Nat} (hk : k < l.length) (h : l.getD k true = false) :
    (l.set k true).count false < l.count false := by
  induction l generalizing k with
  | nil => simp at hk
  | cons a l ih =>
    cases k with
    | zero =>
      simp at h
      subst h
      simp
    | succ k =>
      have := ih (k := k) (by simpa using hk) (by simpa using h)
      simp only [List.set_cons_succ, List.count_cons]
      omega

end Verif
