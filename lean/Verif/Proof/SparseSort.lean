import Verif.Model.Sparse
import Verif.Proof.SparseLoop

/-! # Counting sort into a sparse matrix -/

namespace Verif.Sp
open Res

variable {V : Type} {ι : Type}

theorem _root_.Verif.ext_getD {α : Type _} {l l' : List α} (d : α) (hl : l.length = l'.length)
    (h : ∀ k, k < l.length → l.getD k d = l'.getD k d) : l = l' := by
  apply List.ext_getElem?
  intro k
  by_cases hk : k < l.length
  · rw [getElem?_getD d hk, getElem?_getD d (by omega), h k hk]
  · rw [List.getElem?_eq_none (by omega), List.getElem?_eq_none (by omega)]

/-- Counts of each key. -/
def cntArr (key : ι → Nat) (m : Nat) (pre : List ι) : List Nat :=
  (List.range m).map (cntKey key pre)

/-- Start positions of each key. -/
def ptrArr (key : ι → Nat) (m : Nat) (items : List ι) : List Nat :=
  (List.range (m + 1)).map (below key items)

theorem cntArr_nil (key : ι → Nat) (m : Nat) : cntArr key m [] = List.replicate m 0 := by
  apply List.ext_getElem?
  intro k
  simp only [cntArr, List.getElem?_map, List.getElem?_replicate]
  by_cases h : k < m <;> simp [h]

@[simp] theorem cntArr_length (key : ι → Nat) (m : Nat) (pre : List ι) :
    (cntArr key m pre).length = m := by simp [cntArr]

@[simp] theorem ptrArr_length (key : ι → Nat) (m : Nat) (pre : List ι) :
    (ptrArr key m pre).length = m + 1 := by simp [ptrArr]

theorem cntArr_getD (key : ι → Nat) {m k : Nat} (pre : List ι) (h : k < m) :
    (cntArr key m pre).getD k 0 = cntKey key pre k := by
  simp [cntArr, List.getD_eq_getElem?_getD, h]

theorem ptrArr_getD (key : ι → Nat) {m k : Nat} (pre : List ι) (h : k ≤ m) :
    (ptrArr key m pre).getD k 0 = below key pre k := by
  simp [ptrArr, List.getD_eq_getElem?_getD, Nat.lt_succ_of_le h]

theorem cntArr_rd (key : ι → Nat) {m k : Nat} (pre : List ι) (h : k < m) :
    rd (cntArr key m pre) k = ok (cntKey key pre k) := by
  rw [rd_getD 0 (by simpa using h), cntArr_getD key pre h]

theorem ptrArr_rd (key : ι → Nat) {m k : Nat} (pre : List ι) (h : k ≤ m) :
    rd (ptrArr key m pre) k = ok (below key pre k) := by
  rw [rd_getD 0 (by simp; omega), ptrArr_getD key pre h]

theorem cntArr_wr (key : ι → Nat) {m : Nat} (pre : List ι) {a : ι} (h : key a < m) :
    wr (cntArr key m pre) (key a) (cntKey key pre (key a) + 1) = ok (cntArr key m (pre ++ [a])) := by
  rw [wr_eq (by simpa using h)]
  congr 1
  apply List.ext_getElem?
  intro k
  rw [List.getElem?_set]
  simp only [cntArr, List.getElem?_map]
  by_cases hk : k < m
  · by_cases e : key a = k
    · subst e; simp [cntKey_concat, h]
    · simp [cntKey_concat, e, hk]
  · rw [List.getElem?_eq_none (l := List.range m) (by simpa using hk)]
    rw [if_neg (by intro e; omega)]; rfl

theorem runningPtr_wp (key : ι → Nat) {m len : Nat} (items : List ι) (hk : ∀ a ∈ items, key a < m)
    (hlen : len = m + 1) :
    runningPtr (cntArr key m items) m items.length len = ok (ptrArr key m items) := by
  have h := forRange_wp (fun k (s : List Nat × Nat) => s.2 = below key items k ∧
      s.1.length = m + 1 ∧ ∀ j, j < k → s.1.getD j 0 = below key items j)
      (lo := 0) (hi := m) (f := fun k (s : List Nat × Nat) => do
        let p ← wr s.1 k s.2
        let v ← rd (cntArr key m items) k
        ok (p, s.2 + v)) (s := (List.replicate len 0, 0)) (Nat.zero_le _)
      ⟨(below_zero _ _).symm, by simpa using hlen, by omega⟩ ?_
  · obtain ⟨s, h1, h2, h3, h4⟩ := wp_iff.1 h
    unfold runningPtr
    rw [h1]
    simp only [ok_bind]
    rw [wr_eq (by omega)]
    congr 1
    refine ext_getD 0 (by simpa using h3) ?_
    intro k h5
    have h7 : k ≤ m := by simp at h5; omega
    rw [ptrArr_getD key items h7, getD_set]
    by_cases hkm : m = k
    · rw [if_pos ⟨hkm, by omega⟩, ← hkm, below_all key items m hk]
    · rw [if_neg (by omega), h4 k (by omega)]
  · rintro k ⟨p, c⟩ - hkm ⟨h1, h2, h3⟩
    dsimp only at h1 h2 h3 ⊢
    rw [wr_eq (by omega)]
    simp only [ok_bind, cntArr_rd key items hkm, wp_ok]
    refine ⟨by rw [below_succ, h1], by simpa using h2, ?_⟩
    intro j hj
    rw [getD_set]
    by_cases e : k = j
    · rw [if_pos ⟨e, by omega⟩, h1, e]
    · rw [if_neg (by omega), h3 j (by omega)]

theorem prefix_loop_wp (key : ι → Nat) {m : Nat} (items : List ι) {p0 : List Nat}
    (hlen : p0.length = m + 1) (h00 : p0.getD 0 0 = 0)
    {f : Nat → List Nat → Res (List Nat)} {lo : Nat}
    (hf : ∀ k p, k < m → f (k + lo) p = (do
      let a ← rd p k
      let b ← rd (cntArr key m items) k
      wr p (k + 1) (a + b))) :
    forRange lo (m + lo) f p0 = ok (ptrArr key m items) := by
  have h := forRange_wp (fun k (s : List Nat) => s.length = m + 1 ∧
      ∀ j, j + lo ≤ k → s.getD j 0 = below key items j)
      (lo := lo) (hi := m + lo) (f := f) (s := p0) (by omega)
      ⟨hlen, by intro j hj; rw [show j = 0 by omega, h00, below_zero]⟩ ?_
  · obtain ⟨s, h1, h2, h3⟩ := wp_iff.1 h
    rw [h1]
    congr 1
    refine ext_getD 0 (by simpa using h2) ?_
    intro k h5
    have h7 : k ≤ m := by omega
    rw [ptrArr_getD key items h7, h3 k (by omega)]
  · intro k p h1 h2 ⟨h3, h4⟩
    obtain ⟨k, rfl⟩ : ∃ k', k = k' + lo := ⟨k - lo, by omega⟩
    rw [hf k p (by omega), rd_getD 0 (by omega), cntArr_rd key items (by omega)]
    simp only [ok_bind]
    rw [wr_eq (by omega), wp_ok]
    refine ⟨by simpa using h3, ?_⟩
    intro j hj
    rw [getD_set]
    by_cases e : k + 1 = j
    · rw [if_pos ⟨e, by omega⟩, ← e, below_succ, h4 k (by omega)]
    · rw [if_neg (by omega), h4 j (by omega)]

theorem prefixPtr_eq (key : ι → Nat) {m len : Nat} (items : List ι) (hlen : len = m + 1) :
    prefixPtr (cntArr key m items) m len = ok (ptrArr key m items) := by
  unfold prefixPtr
  rw [wr_eq (by simp; omega)]
  simp only [ok_bind]
  refine prefix_loop_wp key items (by simpa using hlen) ?_ ?_
  · rw [getD_set, if_pos ⟨rfl, by simp; omega⟩]
  · intro k p _
    simp only [Nat.add_sub_cancel]

/-- Invariant of the placing loop. -/
structure PlaceInv (pat : Bool) (key f : ι → Nat) (g : ι → V) (m : Nat) (items : List ι)
    (icap xcap : Nat) (pre : List ι) (s : Place V) : Prop where
  cnt : s.cnt = cntArr key m pre
  ilen : s.i.length = icap
  xlen : s.x.length = xcap
  idx : Filled key f items pre (s.i.take items.length)
  val : pat = false → Filled key g items pre (s.x.take items.length)

theorem PlaceInv.init (pat : Bool) (key f : ι → Nat) (g : ι → V) (m : Nat) {items : List ι}
    {s : Place V} (hc : s.cnt = List.replicate m 0) (hi : items.length ≤ s.i.length)
    (hx : pat = false → items.length ≤ s.x.length) :
    PlaceInv pat key f g m items s.i.length s.x.length [] s :=
  ⟨by rw [hc, cntArr_nil], rfl, rfl, Filled.init _ _ (by rw [List.length_take]; omega),
    fun h => Filled.init _ _ (by have := hx h; rw [List.length_take]; omega)⟩

theorem place_wp {pat : Bool} {key f : ι → Nat} {g : ι → V} {m : Nat} {items pre post : List ι}
    {icap xcap : Nat} {a : ι} {s : Place V} {v : Res V}
    (h : PlaceInv pat key f g m items icap xcap pre s) (he : items = pre ++ a :: post)
    (hk : key a < m) (hv : pat = false → v = ok (g a))
    (hi : items.length ≤ icap) (hx : pat = false → items.length ≤ xcap)
    {k t : Nat} (hf : f a = k) (ht : key a = t) :
    wp (place (ptrArr key m items) pat t k v s)
      (PlaceInv pat key f g m items icap xcap (pre ++ [a])) := by
  subst hf ht
  have hpos := posOf_lt_length key he
  have hpe : below key items (key a) + cntKey key pre (key a) = posOf key items pre (key a) := rfl
  unfold place
  rw [ptrArr_rd key items (le_of_lt hk)]
  simp only [ok_bind]
  rw [h.cnt, cntArr_rd key pre hk]
  simp only [ok_bind, hpe]
  rw [wr_eq (by rw [h.ilen]; omega)]
  simp only [ok_bind]
  cases pat with
  | true =>
    simp only [if_true]
    rw [cntArr_wr key pre hk]
    simp only [ok_bind, wp_ok]
    refine ⟨rfl, by simpa using h.ilen, h.xlen, ?_, by simp⟩
    dsimp only
    rw [List.take_set]
    exact h.idx.step he
  | false =>
    rw [hv rfl]
    simp only [ok_bind, Bool.false_eq_true, if_false]
    rw [wr_eq (by rw [h.xlen]; have := hx rfl; omega)]
    simp only [ok_bind]
    rw [cntArr_wr key pre hk]
    simp only [ok_bind, wp_ok]
    refine ⟨rfl, by simpa using h.ilen, by simpa using h.xlen, ?_, ?_⟩
    · dsimp only
      rw [List.take_set]
      exact h.idx.step he
    · intro _
      dsimp only
      rw [List.take_set]
      exact (h.val rfl).step he

/-- `B` stores the items sorted by key. -/
structure FromItems (pat : Bool) (B : Sp V) (key f : ι → Nat) (g : ι → V) (items : List ι) :
    Prop where
  p : B.p = ptrArr key B.cols items
  keys : ∀ a ∈ items, key a < B.cols
  rows : ∀ a ∈ items, f a < B.rows
  i : B.i.take items.length = (bucket B.cols key items).map f
  x : pat = false → B.x.take items.length = (bucket B.cols key items).map g

theorem PlaceInv.done {pat : Bool} {key f : ι → Nat} {g : ι → V} {m rows : Nat} {items : List ι}
    {icap xcap : Nat} {s : Place V} (h : PlaceInv pat key f g m items icap xcap items s)
    (hk : ∀ a ∈ items, key a < m) (hr : ∀ a ∈ items, f a < rows) :
    FromItems pat ⟨rows, m, ptrArr key m items, s.i, s.x⟩ key f g items :=
  ⟨rfl, hk, hr, h.idx.done hk, fun hp => (h.val hp).done hk⟩

namespace FromItems
variable {pat : Bool} {B : Sp V} {key f : ι → Nat} {g : ι → V} {items : List ι}

theorem length_bucket (h : FromItems pat B key f g items) :
    (bucket B.cols key items).length = items.length := by
  rw [bucket_length_below, below_all key items _ h.keys]

theorem ptr (h : FromItems pat B key f g items) {c : Nat} (hc : c ≤ B.cols) :
    B.p.getD c 0 = below key items c := by
  rw [h.p, ptrArr_getD key items hc]

theorem ilen (h : FromItems pat B key f g items) : items.length ≤ B.i.length := by
  have := congrArg List.length h.i
  rw [List.length_take, List.length_map, h.length_bucket] at this
  omega

theorem xlen (h : FromItems false B key f g items) : items.length ≤ B.x.length := by
  have := congrArg List.length (h.x rfl)
  rw [List.length_take, List.length_map, h.length_bucket] at this
  omega

theorem slice_take {α : Type} (l : List α) {a b n : Nat} (h : b ≤ n) :
    slice l a b = slice (l.take n) a b := by
  apply List.ext_getElem?
  intro k
  rw [getElem?_slice, getElem?_slice]
  by_cases hk : a + k < b
  · rw [if_pos hk, if_pos hk, List.getElem?_take, if_pos (by omega)]
  · rw [if_neg hk, if_neg hk]

theorem slice_map {α β : Type} (l : List α) (f : α → β) (a b : Nat) :
    slice (l.map f) a b = (slice l a b).map f := by
  simp [slice]

theorem colRows_items (h : FromItems pat B key f g items) {c : Nat} (hc : c < B.cols) :
    B.colRows c = (items.filter fun a => key a = c).map f := by
  rw [colRows_eq, h.ptr (le_of_lt hc), h.ptr hc, slice_take _ (below_le_length key items (c + 1)),
    h.i, slice_map, bucket_slice key items hc]

theorem colVals_items (h : FromItems false B key f g items) {c : Nat} (hc : c < B.cols) :
    B.colVals c = (items.filter fun a => key a = c).map g := by
  rw [colVals_eq, h.ptr (le_of_lt hc), h.ptr hc, slice_take _ (below_le_length key items (c + 1)),
    h.x rfl, slice_map, bucket_slice key items hc]

theorem patWF (h : FromItems pat B key f g items) : B.PatWF where
  plen := by rw [h.p]; simp
  p0 := by rw [h.ptr (Nat.zero_le _), below_zero]
  mono c hc := by
    rw [h.ptr (le_of_lt hc), h.ptr hc]; exact below_mono _ _ (Nat.le_succ _)
  bound := by
    rw [h.ptr (le_refl _)]; exact (below_le_length _ _ _).trans h.ilen
  range c hc r hr := by
    rw [h.colRows_items hc, List.mem_map] at hr
    obtain ⟨a, ha, rfl⟩ := hr
    exact h.rows a (List.mem_filter.1 ha).1

theorem wf (h : FromItems false B key f g items) : B.WF where
  toPatWF := h.patWF
  xlen := by
    rw [h.ptr (le_refl _)]; exact (below_le_length _ _ _).trans h.xlen

theorem coords_eq (h : FromItems pat B key f g items) :
    B.coords = (bucket B.cols key items).map fun a => (f a, key a) := by
  unfold coords bucket
  rw [List.map_flatMap]
  refine List.flatMap_congr ?_
  intro c hc
  rw [h.colRows_items (List.mem_range.1 hc), List.map_map]
  refine List.map_congr_left ?_
  intro a ha
  have := (List.mem_filter.1 ha).2
  simp only [decide_eq_true_eq] at this
  simp [this]

theorem entries_items (h : FromItems false B key f g items) :
    B.entries = (bucket B.cols key items).map fun a => (f a, key a, g a) := by
  unfold entries bucket
  rw [List.map_flatMap]
  refine List.flatMap_congr ?_
  intro c hc
  rw [h.colRows_items (List.mem_range.1 hc), h.colVals_items (List.mem_range.1 hc),
    List.zip_map', List.map_map]
  refine List.map_congr_left ?_
  intro a ha
  have := (List.mem_filter.1 ha).2
  simp only [decide_eq_true_eq] at this
  simp [this]

end FromItems

theorem used_eq {A : Sp V} (h : A.PatWF) : rd A.p A.cols = ok A.tagged.length := by
  rw [rd_getD 0 (by rw [h.plen]; omega), tagged_length h]

theorem tagged_map_row {A : Sp V} (h : A.PatWF) {j : Nat} (hj : j < A.tagged.length) :
    A.tagged[j].1.1 = A.i.getD j 0 := (tagged_inv h (List.getElem?_eq_getElem hj)).2.2.1

theorem tagged_rows {A : Sp V} (h : A.PatWF) : ∀ a ∈ A.tagged, a.1.1 < A.rows := by
  intro a ha
  obtain ⟨j, hj, rfl⟩ := List.getElem_of_mem ha
  exact (tagged_inv h (List.getElem?_eq_getElem hj)).2.2.2.2.2

theorem tagged_cols {A : Sp V} (h : A.PatWF) : ∀ a ∈ A.tagged, a.1.2 < A.cols := by
  intro a ha
  obtain ⟨j, hj, rfl⟩ := List.getElem_of_mem ha
  exact (tagged_inv h (List.getElem?_eq_getElem hj)).2.1

theorem countRows_eq {A : Sp V} (h : A.PatWF) :
    countRows A A.tagged.length A.rows = ok (cntArr (fun e => e.1.1) A.rows A.tagged) := by
  have hw := forRange_wp (fun k cnt =>
      cnt = cntArr (fun e : (Nat × Nat) × Nat => e.1.1) A.rows (A.tagged.take k))
      (lo := 0) (hi := A.tagged.length)
      (f := fun k cnt => do
        let r ← rd A.i k
        let v ← rd cnt r
        wr cnt r (v + 1)) (s := List.replicate A.rows 0) (Nat.zero_le _)
      (by rw [List.take_zero, cntArr_nil]) ?_
  · obtain ⟨c, h1, h2⟩ := wp_iff.1 hw
    unfold countRows
    rw [h1, h2, List.take_length]
  · rintro k _ - hk rfl
    have hrow := tagged_map_row h hk
    have hlt := tagged_rows h _ (List.getElem_mem hk)
    have hil : k < A.i.length := by
      rw [tagged_length h] at hk; have := h.bound; omega
    rw [rd_getD 0 hil, ← hrow]
    simp only [ok_bind]
    rw [cntArr_rd _ _ hlt]
    simp only [ok_bind]
    rw [cntArr_wr (fun e : (Nat × Nat) × Nat => e.1.1) _ hlt, wp_ok, List.take_append_getElem hk]

end Verif.Sp
