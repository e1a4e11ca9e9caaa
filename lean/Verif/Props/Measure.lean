import Verif.Model.Measure
import Verif.ResLemmas
import Verif.Proof.SparseLoop
import Mathlib.Algebra.Order.Group.Abs

/-!
# C93: residual, norm, median of times, name of a file
-/

namespace Verif.Measure
open Res

section
variable {K : Type} [AddCommGroup K] [LinearOrder K] [IsOrderedAddMonoid K]

/-- **C93** In exact arithmetic `residual` is the largest difference of two elements, 0 for an empty range. -/
theorem C93_residual {lo hi : Nat} (hle : lo ≤ hi) {x0 x1 : List K} (h0 : hi ≤ x0.length) (h1 : hi ≤ x1.length) :
    ∃ m, residual (fun a b => |a - b|) (fun a b => decide (b < a)) lo hi x0 x1 = ok m ∧
      (∀ i, lo ≤ i → i < hi → |x0.getD i 0 - x1.getD i 0| ≤ m) ∧
      ((lo = hi ∧ m = 0) ∨ ∃ i, lo ≤ i ∧ i < hi ∧ m = |x0.getD i 0 - x1.getD i 0|) := by
  refine wp_iff.1 ?_
  unfold residual
  refine wp_mono (Q := fun m => 0 ≤ m ∧ (∀ i, lo ≤ i → i < hi → |x0.getD i 0 - x1.getD i 0| ≤ m) ∧
      (m = 0 ∨ ∃ i, lo ≤ i ∧ i < hi ∧ m = |x0.getD i 0 - x1.getD i 0|)) ?_ ?_
  · refine forRange_wp' (fun k m => 0 ≤ m ∧ (∀ i, lo ≤ i → i < k → |x0.getD i 0 - x1.getD i 0| ≤ m) ∧
      (m = 0 ∨ ∃ i, lo ≤ i ∧ i < k ∧ m = |x0.getD i 0 - x1.getD i 0|)) hle ⟨le_refl _, by omega, .inl rfl⟩ ?_
      (fun _ h => h)
    rintro k m hk1 hk2 ⟨a1, a2, a3⟩
    rw [rd_getD 0 (by omega), ok_bind, rd_getD 0 (by omega), ok_bind, wp_ok]
    by_cases hg : m < |x0.getD k 0 - x1.getD k 0|
    · rw [if_pos (by simpa using hg)]
      refine ⟨abs_nonneg _, fun i hi1 hi2 => ?_, .inr ⟨k, hk1, by omega, rfl⟩⟩
      by_cases e : i = k
      · rw [e]
      · exact le_of_lt (lt_of_le_of_lt (a2 i hi1 (by omega)) hg)
    · rw [if_neg (by simpa using hg)]
      refine ⟨a1, fun i hi1 hi2 => ?_, a3.imp id fun ⟨i, b1, b2, b3⟩ => ⟨i, b1, by omega, b3⟩⟩
      by_cases e : i = k
      · rw [e]; exact le_of_not_gt hg
      · exact a2 i hi1 (by omega)
  · rintro m ⟨a1, a2, a3⟩
    refine ⟨a2, ?_⟩
    rcases a3 with rfl | h
    · rcases Nat.eq_or_lt_of_le hle with e | hlt
      · exact .inl ⟨e, rfl⟩
      · exact .inr ⟨lo, le_refl _, hlt, le_antisymm (abs_nonneg _) (a2 lo (le_refl _) hlt)⟩
    · exact .inr h

/-- **C93** `residual` is 0 exactly if the two vectors agree in the range. -/
theorem C93_residual_zero {lo hi : Nat} (hle : lo ≤ hi) {x0 x1 : List K} (h0 : hi ≤ x0.length) (h1 : hi ≤ x1.length) :
    residual (fun a b => |a - b|) (fun a b => decide (b < a)) lo hi x0 x1 = ok 0 ↔
      ∀ i, lo ≤ i → i < hi → x0.getD i 0 = x1.getD i 0 := by
  obtain ⟨m, hm, h2, h3⟩ := C93_residual hle h0 h1
  rw [hm]
  constructor
  · intro h
    cases h
    intro i hi1 hi2
    exact sub_eq_zero.1 (abs_nonpos_iff.1 (h2 i hi1 hi2))
  · intro h
    rcases h3 with ⟨-, rfl⟩ | ⟨i, b1, b2, rfl⟩
    · rfl
    · rw [h i b1 b2, sub_self, abs_zero]

/-- **C93** In exact arithmetic `norm` is the largest absolute value (the maximum norm), 0 for an empty vector. -/
theorem C93_norm {n : Nat} {v : List K} (h : n ≤ v.length) :
    ∃ m, norm (fun a => |a|) (fun a b => decide (b < a)) n v = ok m ∧ (∀ i, i < n → |v.getD i 0| ≤ m) ∧
      ((n = 0 ∧ m = 0) ∨ ∃ i, i < n ∧ m = |v.getD i 0|) := by
  refine wp_iff.1 ?_
  unfold norm
  refine wp_mono (Q := fun m => 0 ≤ m ∧ (∀ i, i < n → |v.getD i 0| ≤ m) ∧
      (m = 0 ∨ ∃ i, i < n ∧ m = |v.getD i 0|)) ?_ ?_
  · refine forRange_wp' (fun k m => 0 ≤ m ∧ (∀ i, i < k → |v.getD i 0| ≤ m) ∧
      (m = 0 ∨ ∃ i, i < k ∧ m = |v.getD i 0|)) (Nat.zero_le _) ⟨le_refl _, by omega, .inl rfl⟩ ?_ (fun _ h => h)
    rintro k m hk1 hk2 ⟨a1, a2, a3⟩
    rw [rd_getD 0 (by omega), ok_bind, wp_ok]
    by_cases hg : m < |v.getD k 0|
    · rw [if_pos (by simpa using hg)]
      refine ⟨abs_nonneg _, fun i hi2 => ?_, .inr ⟨k, by omega, rfl⟩⟩
      by_cases e : i = k
      · rw [e]
      · exact le_of_lt (lt_of_le_of_lt (a2 i (by omega)) hg)
    · rw [if_neg (by simpa using hg)]
      refine ⟨a1, fun i hi2 => ?_, a3.imp id fun ⟨i, b2, b3⟩ => ⟨i, by omega, b3⟩⟩
      by_cases e : i = k
      · rw [e]; exact le_of_not_gt hg
      · exact a2 i (by omega)
  · rintro m ⟨a1, a2, a3⟩
    refine ⟨a2, ?_⟩
    rcases a3 with rfl | h
    · rcases Nat.eq_zero_or_pos n with e | hlt
      · exact .inl ⟨e, rfl⟩
      · exact .inr ⟨0, hlt, le_antisymm (abs_nonneg _) (a2 0 hlt)⟩
    · exact .inr h

end

/-- **C93** A NaN is not noticed: with an arithmetic whose comparisons with NaN (`none`) are false, the residual of a
vector of NaN and the norm of a vector of NaN are 0. -/
theorem C93_nan_ignored (n : Nat) (x : List (Option Int)) (h : n ≤ x.length) :
    @residual (Option Int) ⟨some 0⟩ (fun a b => a.bind fun a => b.map fun b => |a - b|)
      (fun a b => match a, b with | some a, some b => decide (b < a) | _, _ => false) 0 n
      (List.replicate n none) x = ok (some 0) ∧
    @norm (Option Int) ⟨some 0⟩ (fun a => a.map fun a => |a|)
      (fun a b => match a, b with | some a, some b => decide (b < a) | _, _ => false) n
      (List.replicate n none) = ok (some 0) := by
  constructor
  · have : wp (@residual (Option Int) ⟨some 0⟩ (fun a b => a.bind fun a => b.map fun b => |a - b|)
        (fun a b => match a, b with | some a, some b => decide (b < a) | _, _ => false) 0 n
        (List.replicate n none) x) fun m => m = some 0 := by
      unfold residual
      refine forRange_wp' (fun _ m => m = some 0) (Nat.zero_le _) rfl ?_ (fun _ h => h)
      rintro k m _ hk rfl
      rw [rd_getD none (by simpa using hk), ok_bind, rd_getD none (by omega), ok_bind, wp_ok,
        getD_replicate _ _ _ _ hk]
      rfl
    obtain ⟨m, h1, rfl⟩ := wp_iff.1 this
    exact h1
  · have : wp (@norm (Option Int) ⟨some 0⟩ (fun a => a.map fun a => |a|)
        (fun a b => match a, b with | some a, some b => decide (b < a) | _, _ => false) n
        (List.replicate n none)) fun m => m = some 0 := by
      unfold norm
      refine forRange_wp' (fun _ m => m = some 0) (Nat.zero_le _) rfl ?_ (fun _ h => h)
      rintro k m _ hk rfl
      rw [rd_getD none (by simpa using hk), ok_bind, wp_ok, getD_replicate _ _ _ _ hk]
      rfl
    obtain ⟨m, h1, rfl⟩ := wp_iff.1 this
    exact h1

/-- **C93** `time_median` of at least one measurement, for every sorting function: one of the measurements, with more
than half of them not above it and at least half of them not below it. -/
theorem C93_time_median {T : Type} [LinearOrder T] {srt : List T → List T} {ts : List T} (hp : (srt ts).Perm ts)
    (hs : (srt ts).Pairwise (· ≤ ·)) (minusOne : T) (h0 : ts ≠ []) :
    ∃ t, timeMedian srt minusOne ts = ok t ∧ t ∈ ts ∧ ts.length < 2 * ts.countP (fun a => decide (a ≤ t)) ∧
      ts.length ≤ 2 * ts.countP (fun a => decide (t ≤ a)) := by
  have hlen : (srt ts).length = ts.length := hp.length_eq
  have hpos : 0 < ts.length := List.length_pos_iff.2 h0
  have hk : ts.length / 2 < (srt ts).length := by omega
  have hmed : timeMedian srt minusOne ts = ok ((srt ts)[ts.length / 2]) := by
    unfold timeMedian
    rw [if_neg (by omega)]
    dsimp only
    split
    · rename_i h1
      have : ts.length / 2 = 0 := by omega
      simp [rd, this, show 0 < (srt ts).length by omega]
    · simp [rd, hk]
  generalize hq : ts.length / 2 = q at *
  refine ⟨(srt ts)[q], hmed, hp.mem_iff.1 (List.getElem_mem _), ?_, ?_⟩
  · rw [← hp.countP_eq]
    have h1 : ((srt ts).take (q + 1)).countP (fun a => decide (a ≤ (srt ts)[q])) = q + 1 := by
      rw [List.countP_eq_length.2, List.length_take]
      · omega
      · intro a ha
        obtain ⟨j, hj, rfl⟩ := List.mem_take_iff_getElem.1 ha
        rw [decide_eq_true_iff]
        rcases Nat.lt_or_ge j q with h | h
        · exact List.pairwise_iff_getElem.1 hs j q (by omega) hk h
        · have : j = q := by omega
          subst this; exact le_refl _
    have h2 := ((List.take_sublist (q + 1) (srt ts)).countP_le (p := fun a => decide (a ≤ (srt ts)[q])))
    omega
  · rw [← hp.countP_eq]
    have h1 : ((srt ts).drop q).countP (fun a => decide ((srt ts)[q] ≤ a)) = (srt ts).length - q := by
      rw [List.countP_eq_length.2, List.length_drop]
      intro a ha
      obtain ⟨j, hj, rfl⟩ := List.mem_drop_iff_getElem.1 ha
      rw [decide_eq_true_iff]
      rcases Nat.eq_zero_or_pos j with h | h
      · subst h; exact le_refl _
      · exact List.pairwise_iff_getElem.1 hs q (q + j) hk (by omega) (by omega)
    have h2 := ((List.drop_sublist q (srt ts)).countP_le (p := fun a => decide ((srt ts)[q] ≤ a)))
    omega

theorem rfind_none {c : Char} {s : List Char} (h : c ∉ s) : rfind c s = none := by
  induction s with
  | nil => rfl
  | cons a l ih =>
    rw [List.mem_cons, not_or] at h
    rw [rfind, ih h.2]
    dsimp only
    rw [if_neg (fun e => h.1 e.symm)]

theorem rfind_last {c : Char} (s : List Char) {t : List Char} (h : c ∉ t) : rfind c (s ++ c :: t) = some s.length := by
  induction s with
  | nil =>
    rw [List.nil_append, rfind, rfind_none h]
    simp
  | cons a l ih =>
    rw [List.cons_append, rfind, ih]
    rfl

/-- **C93** `strip_name` of `directory/name.extension` is `name` (which may have dots), for all names shorter than
`2^63` characters. -/
theorem C93_strip_name {d b e : List Char} (hb : '/' ∉ b) (he : '/' ∉ e) (hd : '.' ∉ e)
    (hl : (d ++ '/' :: (b ++ '.' :: e)).length < 2 ^ 63) :
    stripName (d ++ '/' :: (b ++ '.' :: e)) = ok b ∧ stripName (b ++ '.' :: e) = ok b := by
  simp only [List.length_append, List.length_cons] at hl
  have h1 : rfind '/' (d ++ '/' :: (b ++ '.' :: e)) = some d.length := by
    refine rfind_last d ?_
    simp [hb, he]
  have h2 : rfind '.' (d ++ '/' :: (b ++ '.' :: e)) = some (d.length + 1 + b.length) := by
    have := rfind_last (c := '.') (d ++ '/' :: b) hd
    rw [List.append_assoc, List.cons_append] at this
    rw [this]
    simp [List.length_append]
    omega
  have h3 : rfind '/' (b ++ '.' :: e) = none := rfind_none (by simp [hb, he])
  have h4 : rfind '.' (b ++ '.' :: e) = some b.length := rfind_last b hd
  constructor
  · unfold stripName
    rw [h1, h2]
    dsimp only [Option.getD]
    have e1 : (d.length + 1 + b.length + 2 * 2 ^ 64 - d.length - 1) % 2 ^ 64 = b.length := by omega
    rw [if_pos (by unfold npos; omega), if_pos (by unfold npos; omega), e1]
    unfold substr
    rw [if_neg (by simp only [List.length_append, List.length_cons]; omega)]
    have : d ++ '/' :: (b ++ '.' :: e) = (d ++ ['/']) ++ (b ++ '.' :: e) := by simp
    rw [this, List.drop_left' (by simp), List.take_left]
  · unfold stripName
    rw [h3, h4]
    dsimp only [Option.getD]
    have e1 : (b.length + 2 * 2 ^ 64 - npos - 1) % 2 ^ 64 = b.length := by unfold npos; omega
    rw [if_neg (by simp), if_pos (by unfold npos; omega), e1]
    unfold substr
    rw [if_neg (by omega), List.drop_zero, List.take_left]

/-- **C93** Without an extension the whole name is kept, even if a directory has a dot in its name. -/
theorem C93_strip_name_no_ext {d b : List Char} (hb : '/' ∉ b) (hd : '.' ∉ b)
    (hl : (d ++ '/' :: b).length < 2 ^ 63) : stripName (d ++ '/' :: b) = ok b ∧ stripName b = ok b := by
  simp only [List.length_append, List.length_cons] at hl
  have hp : ∀ (c : Char) (s : List Char) (k : Nat), rfind c s = some k → k < s.length := by
    intro c s
    induction s with
    | nil => intro k h; cases h
    | cons a l ih =>
      intro k h
      rw [rfind] at h
      split at h
      · rename_i m hm
        cases h
        have := ih m hm
        rw [List.length_cons]; omega
      · split at h
        · cases h; simp
        · cases h
  have h1 : rfind '/' (d ++ '/' :: b) = some d.length := rfind_last d hb
  have hdot : ∀ s : List Char, rfind '.' (s ++ b) = rfind '.' s := by
    intro s
    induction s with
    | nil => rw [List.nil_append, rfind_none hd]; rfl
    | cons a l ih => rw [List.cons_append, rfind, rfind, ih]
  constructor
  · unfold stripName
    have h2 : rfind '.' (d ++ '/' :: b) = rfind '.' (d ++ ['/']) := by
      have := hdot (d ++ ['/'])
      rwa [List.append_assoc, List.singleton_append] at this
    have h3 : rfind '.' (d ++ ['/']) = rfind '.' d := by
      have : ∀ s : List Char, rfind '.' (s ++ ['/']) = rfind '.' s := by
        intro s
        induction s with
        | nil => decide
        | cons a l ih => rw [List.cons_append, rfind, rfind, ih]
      exact this d
    rw [h1, h2, h3]
    dsimp only [Option.getD]
    rw [if_pos (by unfold npos; omega)]
    unfold substr
    rw [if_neg (by simp only [List.length_append, List.length_cons]; omega)]
    have hdr : (d ++ '/' :: b).drop (d.length + 1) = b := by
      have : d ++ '/' :: b = (d ++ ['/']) ++ b := by simp
      rw [this, List.drop_left' (by simp)]
    rw [hdr]
    congr 1
    refine List.take_of_length_le ?_
    cases hq : rfind '.' d with
    | none =>
      dsimp only
      rw [if_neg (by simp)]
      unfold npos; omega
    | some k =>
      dsimp only
      have := hp _ _ _ hq
      rw [if_pos (by unfold npos; omega)]
      omega
  · unfold stripName
    have : '/' ∉ b := hb
    rw [rfind_none hb, rfind_none hd]
    dsimp only [Option.getD]
    rw [if_neg (by simp), if_neg (by simp)]
    unfold substr
    rw [if_neg (by omega), List.drop_zero, List.take_of_length_le (by unfold npos; omega)]

/-! ### Concrete cases -/

example : residual (fun a b : Int => |a - b|) (fun a b => decide (b < a)) 1 4 [9, 2, -3, 4] [0, 1, 4, 4] = ok 7 := by
  decide

example : norm (fun a : Int => |a|) (fun a b => decide (b < a)) 3 [1, -5, 4] = ok 5 := by decide

example : ([1, 3, 3, 7] : List Int).Perm [3, 7, 1, 3] ∧ ([1, 3, 3, 7] : List Int).Pairwise (· ≤ ·) ∧
    timeMedian (fun _ => [1, 3, 3, 7]) (-1 : Int) [3, 7, 1, 3] = ok 3 := by decide

example : stripName "mat.d/ash.85.mtx".toList = ok "ash.85".toList ∧ stripName "mat.d/ash".toList = ok "ash".toList := by
  decide +kernel

end Verif.Measure
