import Verif.ResLemmas
import Verif.Proof.Slices

/-! # Stable counting sort

`bucket m key items` lists the items by key `0, 1, ..., m-1`, items with equal keys in their
original order.  `Filled` is the invariant of the loops that place the items one by one. -/

namespace Verif
variable {α β : Type _}

/-- Items ordered by key, stable. -/
def bucket (m : Nat) (key : α → Nat) (items : List α) : List α :=
  (List.range m).flatMap fun k => items.filter fun a => key a = k

/-- Number of items with a key smaller than `k`. -/
def below (key : α → Nat) (items : List α) (k : Nat) : Nat := items.countP fun a => key a < k

/-- Number of items with key `k`. -/
def cntKey (key : α → Nat) (items : List α) (k : Nat) : Nat := items.countP fun a => key a = k

@[simp] theorem below_nil (key : α → Nat) (k : Nat) : below key [] k = 0 := rfl
@[simp] theorem cntKey_nil (key : α → Nat) (k : Nat) : cntKey key [] k = 0 := rfl

theorem below_zero (key : α → Nat) (items : List α) : below key items 0 = 0 := by
  simp [below]

theorem below_succ (key : α → Nat) (items : List α) (k : Nat) :
    below key items (k + 1) = below key items k + cntKey key items k := by
  induction items with
  | nil => rfl
  | cons a l ih =>
    simp only [below, cntKey, List.countP_cons] at ih ⊢
    rw [ih]
    by_cases h1 : key a < k
    · have : ¬ key a = k := by omega
      have : key a < k + 1 := by omega
      simp [*]; omega
    · by_cases h2 : key a = k
      · simp [h2]; omega
      · have : ¬ key a < k + 1 := by omega
        simp [*]

theorem below_mono (key : α → Nat) (items : List α) {a b : Nat} (h : a ≤ b) :
    below key items a ≤ below key items b := by
  induction b with
  | zero => have : a = 0 := by omega
            rw [this]
  | succ b ih =>
    by_cases hab : a ≤ b
    · rw [below_succ]; exact Nat.le_add_right_of_le (ih hab)
    · have : a = b + 1 := by omega
      rw [this]

theorem below_all (key : α → Nat) (items : List α) (m : Nat) (h : ∀ a ∈ items, key a < m) :
    below key items m = items.length := by
  rw [below, List.countP_eq_length]
  intro a ha; simpa using h a ha

theorem cntKey_append (key : α → Nat) (l₁ l₂ : List α) (k : Nat) :
    cntKey key (l₁ ++ l₂) k = cntKey key l₁ k + cntKey key l₂ k := by
  simp [cntKey]

theorem cntKey_concat (key : α → Nat) (l : List α) (a : α) (k : Nat) :
    cntKey key (l ++ [a]) k = cntKey key l k + if key a = k then 1 else 0 := by
  rw [cntKey_append]
  congr 1
  simp [cntKey, List.countP_cons]

theorem cntKey_cons (key : α → Nat) (l : List α) (a : α) (k : Nat) :
    cntKey key (a :: l) k = cntKey key l k + if key a = k then 1 else 0 := by
  simp [cntKey, List.countP_cons]

theorem filter_length (key : α → Nat) (l : List α) (k : Nat) :
    (l.filter fun a => key a = k).length = cntKey key l k := by
  rw [cntKey, List.countP_eq_length_filter]

/-- Position of an item: the start of its bucket plus the earlier items with the same key. -/
def posOf (key : α → Nat) (items pre : List α) (k : Nat) : Nat :=
  below key items k + cntKey key pre k

theorem posOf_lt (key : α → Nat) {items pre post : List α} {a : α} (h : items = pre ++ a :: post) :
    posOf key items pre (key a) < below key items (key a + 1) := by
  rw [below_succ, posOf, h]
  have : cntKey key (pre ++ a :: post) (key a)
      = cntKey key pre (key a) + (cntKey key post (key a) + 1) := by
    rw [cntKey_append, cntKey_cons, if_pos rfl]
  omega

theorem below_le_length (key : α → Nat) (items : List α) (k : Nat) :
    below key items k ≤ items.length := List.countP_le_length

theorem posOf_lt_length (key : α → Nat) {items pre post : List α} {a : α}
    (h : items = pre ++ a :: post) : posOf key items pre (key a) < items.length :=
  Nat.lt_of_lt_of_le (posOf_lt key h) (below_le_length _ _ _)

/-- Invariant of the placing loop: `out` has the items of `pre` in place. -/
structure Filled (key : α → Nat) (f : α → β) (items pre : List α) (out : List β) : Prop where
  len : out.length = items.length
  get : ∀ k j, j < cntKey key pre k →
    out[below key items k + j]? = ((pre.filter fun a => key a = k).map f)[j]?

theorem Filled.init (key : α → Nat) (f : α → β) {items : List α} {out : List β}
    (h : out.length = items.length) : Filled key f items [] out :=
  ⟨h, by intro k j hj; simp at hj⟩

theorem Filled.step {key : α → Nat} {f : α → β} {items pre post : List α} {a : α} {out : List β}
    (hF : Filled key f items pre out) (h : items = pre ++ a :: post) :
    Filled key f items (pre ++ [a]) (out.set (posOf key items pre (key a)) (f a)) := by
  refine ⟨by simpa using hF.len, ?_⟩
  intro k j hj
  have hlt := posOf_lt_length key h
  rw [List.getElem?_set]
  by_cases hk : key a = k
  · subst hk
    rw [cntKey_concat, if_pos rfl] at hj
    have hf : (pre ++ [a]).filter (fun b => key b = key a)
        = pre.filter (fun b => key b = key a) ++ [a] := by simp
    rw [hf, List.map_append]
    by_cases hjc : j = cntKey key pre (key a)
    · subst hjc
      rw [if_pos (by unfold posOf; rfl),
        if_pos (by rw [hF.len]; exact hlt)]
      rw [List.getElem?_append_right (by rw [List.length_map, filter_length])]
      simp [filter_length]
    · rw [if_neg (by unfold posOf; omega), hF.get (key a) j (by omega),
        List.getElem?_append_left (by rw [List.length_map, filter_length]; omega)]
  · rw [cntKey_concat, if_neg hk, Nat.add_zero] at hj
    have hf : (pre ++ [a]).filter (fun b => key b = k) = pre.filter (fun b => key b = k) := by
      simp [hk]
    rw [hf, if_neg, hF.get k j hj]
    have h1 := posOf_lt key h
    have h2 : cntKey key pre k ≤ cntKey key items k := by
      rw [h, cntKey_append]; omega
    have h3 : below key items k + j < below key items (k + 1) := by rw [below_succ]; omega
    have h4 : below key items (key a) ≤ posOf key items pre (key a) := by unfold posOf; omega
    rcases Nat.lt_or_gt_of_ne hk with h5 | h5
    · have := below_mono key items (a := key a + 1) (b := k) (by omega)
      omega
    · have := below_mono key items (a := k + 1) (b := key a) (by omega)
      omega

theorem take_below_bucket (key : α → Nat) (f : α → β) {items : List α} {out : List β}
    (hF : Filled key f items items out) (m : Nat) :
    out.take (below key items m) = (bucket m key items).map f := by
  induction m with
  | zero => simp [bucket, below_zero]
  | succ m ih =>
    have e : bucket (m + 1) key items = bucket m key items ++ items.filter (fun a => key a = m) := by
      simp [bucket, List.range_succ]
    rw [e, List.map_append, ← ih, ← slice_zero, ← slice_zero,
      ← slice_append (Nat.zero_le _) (below_mono key items (Nat.le_succ m))]
    congr 1
    apply List.ext_getElem?
    intro j
    rw [getElem?_slice]
    rw [below_succ]
    by_cases hj : j < cntKey key items m
    · rw [if_pos (by omega), hF.get m j hj]
    · rw [if_neg (by omega), List.getElem?_eq_none]
      rw [List.length_map, filter_length]; omega

/-- When all items are placed, the array is the stable sort. -/
theorem Filled.done {key : α → Nat} {f : α → β} {items : List α} {out : List β} {m : Nat}
    (hF : Filled key f items items out) (hk : ∀ a ∈ items, key a < m) :
    out = (bucket m key items).map f := by
  rw [← take_below_bucket key f hF m, below_all key items m hk, ← hF.len, List.take_length]

/-! ### Properties of the stable sort -/

theorem mem_bucket {m : Nat} {key : α → Nat} {items : List α} {a : α} :
    a ∈ bucket m key items ↔ a ∈ items ∧ key a < m := by
  simp only [bucket, List.mem_flatMap, List.mem_range, List.mem_filter, decide_eq_true_eq]
  constructor
  · rintro ⟨k, h1, h2, h3⟩; exact ⟨h2, by omega⟩
  · rintro ⟨h1, h2⟩; exact ⟨_, h2, h1, rfl⟩

theorem bucket_succ (m : Nat) (key : α → Nat) (items : List α) :
    bucket (m + 1) key items = bucket m key items ++ items.filter (fun a => key a = m) := by
  simp [bucket, List.range_succ]

theorem bucket_length_below (m : Nat) (key : α → Nat) (items : List α) :
    (bucket m key items).length = below key items m := by
  induction m with
  | zero => simp [bucket, below_zero]
  | succ m ih => rw [bucket_succ, List.length_append, ih, filter_length, below_succ]

theorem bucket_perm_filter (m : Nat) (key : α → Nat) (items : List α) :
    (bucket m key items).Perm (items.filter fun a => key a < m) := by
  induction m with
  | zero => simp [bucket]
  | succ m ih =>
    rw [bucket_succ]
    refine (ih.append_right _).trans ?_
    clear ih
    induction items with
    | nil => simp
    | cons a l ih =>
      by_cases h1 : key a < m
      · have h2 : ¬ key a = m := by omega
        have h3 : key a < m + 1 := by omega
        simpa [List.filter_cons, h1, h2, h3] using ih
      · by_cases h2 : key a = m
        · simp only [List.filter_cons, h2, decide_true, if_true, lt_irrefl, decide_false,
            Bool.false_eq_true, if_false, Nat.lt_succ_self]
          exact List.perm_middle.trans (ih.cons a)
        · have h3 : ¬ key a < m + 1 := by omega
          simpa [List.filter_cons, h1, h2, h3] using ih

theorem bucket_perm {m : Nat} {key : α → Nat} {items : List α} (hk : ∀ a ∈ items, key a < m) :
    (bucket m key items).Perm items := by
  have h := bucket_perm_filter m key items
  rwa [List.filter_eq_self.2 (by simpa using hk)] at h

/-- The items with key `k` occupy positions `below k .. below (k+1)`. -/
theorem bucket_slice {m k : Nat} (key : α → Nat) (items : List α) (hk : k < m) :
    slice (bucket m key items) (below key items k) (below key items (k + 1))
      = items.filter (fun a => key a = k) := by
  induction m with
  | zero => omega
  | succ m ih =>
    rw [bucket_succ]
    by_cases hkm : k < m
    · rw [← ih hkm]
      have hle : below key items (k + 1) ≤ (bucket m key items).length := by
        rw [bucket_length_below]; exact below_mono _ _ (by omega)
      unfold slice
      have hle2 := below_mono key items (Nat.le_succ k)
      rw [List.drop_append_of_le_length (by simp only [Nat.succ_eq_add_one] at hle2; omega),
        List.take_append_of_le_length]
      rw [List.length_drop]; omega
    · have : k = m := by omega
      subst this
      unfold slice
      rw [List.drop_append, bucket_length_below, Nat.sub_self, List.drop_zero,
        List.drop_eq_nil_of_le (by rw [bucket_length_below]), List.nil_append, below_succ,
        List.take_of_length_le]
      rw [filter_length]; omega

/-- Position of an item in terms of its key. -/
theorem bucket_pos {m : Nat} {key : α → Nat} {items : List α} {p : Nat} {a : α}
    (h : (bucket m key items)[p]? = some a) :
    key a < m ∧ below key items (key a) ≤ p ∧ p < below key items (key a + 1) := by
  induction m with
  | zero => simp [bucket] at h
  | succ m ih =>
    rw [bucket_succ, List.getElem?_append] at h
    split at h
    · obtain ⟨h1, h2⟩ := ih h
      exact ⟨by omega, h2⟩
    · next hge =>
      have hm := List.mem_of_getElem? h
      simp only [List.mem_filter, decide_eq_true_eq] at hm
      have hp := (List.getElem?_eq_some_iff.1 h).1
      rw [filter_length] at hp
      rw [bucket_length_below] at hge hp
      rw [hm.2, below_succ]
      omega

/-- Items with equal keys keep their order. -/
theorem bucket_pairwise {R : α → α → Prop} {m : Nat} {key : α → Nat} {items : List α}
    (hR : items.Pairwise R) {p q : Nat} {a b : α} (hpq : p < q)
    (ha : (bucket m key items)[p]? = some a) (hb : (bucket m key items)[q]? = some b)
    (hk : key a = key b) : R a b := by
  obtain ⟨h1, h2, h3⟩ := bucket_pos ha
  obtain ⟨_, h4, h5⟩ := bucket_pos hb
  rw [← hk] at h4 h5
  have hs := bucket_slice key items h1
  have ga : (items.filter fun c => key c = key a)[p - below key items (key a)]? = some a := by
    rw [← hs, getElem?_slice, if_pos (by omega), ← ha]
    congr 1; omega
  have gb : (items.filter fun c => key c = key a)[q - below key items (key a)]? = some b := by
    rw [← hs, getElem?_slice, if_pos (by omega), ← hb]
    congr 1; omega
  have hP := hR.sublist (List.filter_sublist (p := fun c => decide (key c = key a)))
  rw [List.pairwise_iff_getElem] at hP
  obtain ⟨l1, e1⟩ := List.getElem?_eq_some_iff.1 ga
  obtain ⟨l2, e2⟩ := List.getElem?_eq_some_iff.1 gb
  have := hP _ _ l1 l2 (by omega)
  rwa [e1, e2] at this

end Verif
