import Verif.Proof.SparseSort

/-! # Correctness of the conversions -/

namespace Verif.Sp
open Res

variable {V : Type} [Zero V] {A : Sp V}

/-- Value of a tagged entry. -/
abbrev eVal (A : Sp V) (e : (Nat × Nat) × Nat) : V := A.x.getD e.2 0

theorem rd_x (h : A.WF) {pre post : List ((Nat × Nat) × Nat)} {e : (Nat × Nat) × Nat}
    (he : A.tagged = pre ++ e :: post) (hj : pre.length = e.2) : rd A.x e.2 = ok (A.eVal e) := by
  have : e.2 < A.tagged.length := by rw [he]; simp; omega
  rw [tagged_length h.toPatWF] at this
  rw [rd_getD 0 (by have := h.xlen; omega)]

omit [Zero V] in
theorem rd_i {r j : Nat} (h : A.i[j]? = some r) : rd A.i j = ok r := by simp [rd, h]

/-- The placing loop of `csc_to_csr` and `transpose_general`. -/
theorem placeLoop_wp {pat : Bool} (h : A.PatWF) (hx : pat = false → A.p.getD A.cols 0 ≤ A.x.length)
    {s : Place V} (hc : s.cnt = List.replicate A.rows 0)
    (hi : A.tagged.length ≤ s.i.length) (hxl : pat = false → A.tagged.length ≤ s.x.length)
    {body : Nat → Nat → Place V → Res (Place V)}
    (hbody : ∀ pre post r c j (s' : Place V), A.tagged = pre ++ ((r, c), j) :: post →
      c < A.cols → A.i[j]? = some r →
      PlaceInv pat eRow eCol A.eVal A.rows A.tagged s.i.length s.x.length pre s' →
      body c j s' = place (ptrArr eRow A.rows A.tagged) pat r c (rd A.x j) s') :
    wp (forRange 0 A.cols (fun c s => do
      let lo ← rd A.p c
      let hi ← rd A.p (c + 1)
      forRange lo hi (body c) s) s)
      (PlaceInv pat eRow eCol A.eVal A.rows A.tagged s.i.length s.x.length A.tagged) := by
  refine forCols_wp h (PlaceInv pat eRow eCol A.eVal A.rows A.tagged s.i.length s.x.length)
    (PlaceInv.init pat _ _ _ _ hc hi hxl) ?_
  intro pre post r c j s' he hj hcc hr hI
  rw [hbody pre post r c j s' he hcc hr hI]
  refine place_wp (a := ((r, c), j)) hI he (tagged_rows h _ (by rw [he]; simp)) ?_ hi hxl rfl rfl
  intro hp
  exact rd_x ⟨h, hx hp⟩ he hj

theorem cscToCsr_wp {nnz : Nat} {pat : Bool} (h : A.PatWF)
    (hx : pat = false → A.p.getD A.cols 0 ≤ A.x.length) (hr : 0 < A.rows)
    (hn : A.p.getD A.cols 0 ≤ nnz) :
    wp (cscToCsr A nnz pat) fun B =>
      B.rows = A.cols ∧ B.cols = A.rows ∧ FromItems pat B eRow eCol A.eVal A.tagged ∧
      B.i.length = nnz ∧ B.x.length = if pat then 0 else nnz := by
  rw [← tagged_length h] at hn
  unfold cscToCsr
  rw [used_eq h]
  simp only [ok_bind]
  rw [countRows_eq h]
  simp only [ok_bind]
  rw [runningPtr_wp _ _ (tagged_rows h) (by unfold newPtrLen; rw [if_neg (by omega)])]
  simp only [ok_bind, wp_bind]
  refine wp_mono (placeLoop_wp (pat := pat) h hx rfl (by simpa using hn) ?_ ?_) ?_
  · intro hp; subst hp; simpa [newVals] using hn
  · intro pre post r c j s' _ _ hr _
    rw [rd_i hr]; rfl
  · intro s hs
    rw [wp_ok]
    refine ⟨rfl, rfl, hs.done (tagged_rows h) (tagged_cols h), by simpa using hs.ilen, ?_⟩
    have := hs.xlen
    dsimp only at this ⊢
    rw [this]
    cases pat <;> simp [newVals]

theorem cscToCsrArrays_wp (h : A.WF) :
    wp (cscToCsrArrays A) fun B =>
      B.rows = A.cols ∧ B.cols = A.rows ∧ FromItems false B eRow eCol A.eVal A.tagged ∧
      B.i.length = A.p.getD A.cols 0 ∧ B.x.length = A.p.getD A.cols 0 := by
  have hp := h.toPatWF
  unfold cscToCsrArrays
  rw [used_eq hp]
  simp only [ok_bind]
  rw [countRows_eq hp]
  simp only [ok_bind]
  rw [runningPtr_wp _ _ (tagged_rows hp) rfl]
  simp only [ok_bind, wp_bind]
  refine wp_mono (placeLoop_wp (pat := false) hp (fun _ => h.xlen) rfl (by simp) (by simp) ?_) ?_
  · intro pre post r c j s' _ _ hr _
    rw [rd_i hr]; rfl
  · intro s hs
    rw [wp_ok]
    have h1 := hs.ilen
    have h2 := hs.xlen
    simp only [List.length_replicate] at h1 h2
    exact ⟨rfl, rfl, hs.done (tagged_rows hp) (tagged_cols hp), by rw [h1, tagged_length hp],
      by rw [h2, tagged_length hp]⟩

theorem transposeGeneral_wp {dbg pat : Bool} {nnz : Nat} (h : A.PatWF)
    (hx : pat = false → A.p.getD A.cols 0 ≤ A.x.length) (hr : 0 < A.rows)
    (hn : A.p.getD A.cols 0 ≤ nnz) :
    wp (transposeGeneral dbg A nnz pat) fun o => ∃ B, o = some B ∧
      B.rows = A.cols ∧ B.cols = A.rows ∧ FromItems pat B eRow eCol A.eVal A.tagged ∧
      B.i.length = nnz ∧ B.x.length = if pat then 0 else nnz := by
  rw [← tagged_length h] at hn
  unfold transposeGeneral
  rw [if_neg (by omega), used_eq h]
  simp only [ok_bind]
  rw [countRows_eq h]
  simp only [ok_bind]
  rw [prefixPtr_eq _ _ (by unfold newPtrLen; rw [if_neg (by omega)])]
  simp only [ok_bind, wp_bind]
  refine wp_mono (placeLoop_wp (pat := pat) h hx rfl (by simpa using hn) ?_ ?_) ?_
  · intro hp; subst hp; simpa [newVals] using hn
  · intro pre post r c j s' he hc hr hI
    rw [rd_i hr, ok_bind]
    cases dbg with
    | false => rfl
    | true =>
      have hlt := tagged_rows h ((r, c), j) (by rw [he]; simp)
      have hpos := posOf_lt_length eRow he
      have e : below eRow A.tagged r + cntKey eRow pre r < nnz := lt_of_lt_of_le hpos hn
      rw [if_pos rfl, ptrArr_rd _ _ (le_of_lt hlt), ok_bind, hI.cnt, cntArr_rd _ _ hlt, ok_bind,
        if_pos e]
  · intro s hs
    rw [wp_ok]
    refine ⟨_, rfl, rfl, rfl, hs.done (tagged_rows h) (tagged_cols h), by simpa using hs.ilen, ?_⟩
    have := hs.xlen
    dsimp only at this ⊢
    rw [this]
    cases pat <;> simp [newVals]

/-! ### What the sorted matrix is -/

/-- Entries are transposed. -/
theorem FromItems.swap_perm {B : Sp V} (h : A.WF) (hB : FromItems false B eRow eCol A.eVal A.tagged) :
    (B.entries.map swapEntry).Perm A.entries := by
  rw [hB.entries_items, entries_eq h, List.map_map]
  exact (bucket_perm hB.keys).map _

theorem FromItems.coords_perm {B : Sp V} {pat : Bool}
    (hB : FromItems pat B eRow eCol A.eVal A.tagged) :
    (B.coords.map Prod.swap).Perm A.coords := by
  rw [hB.coords_eq, List.map_map]
  refine ((bucket_perm hB.keys).map _).trans ?_
  have : A.tagged.map (Prod.swap ∘ fun a => (eCol a, eRow a)) = A.coords := by
    unfold tagged
    rw [show (Prod.swap ∘ fun a : (Nat × Nat) × Nat => (eCol a, eRow a)) = Prod.fst from rfl]
    simp
  rw [this]

omit [Zero V] in
theorem tagged_pairwise (h : A.PatWF) :
    A.tagged.Pairwise fun a b => eCol a ≤ eCol b ∧ a.2 < b.2 := by
  rw [List.pairwise_iff_getElem]
  intro i j hi hj hij
  obtain ⟨a1, a2, a3, a4, a5, a6⟩ := tagged_inv h (List.getElem?_eq_getElem hi)
  obtain ⟨b1, b2, b3, b4, b5, b6⟩ := tagged_inv h (List.getElem?_eq_getElem hj)
  refine ⟨?_, by omega⟩
  by_contra hlt
  push Not at hlt
  have := h.mono_le (a := eCol A.tagged[j] + 1) (b := eCol A.tagged[i]) (by omega) (by omega)
  omega

theorem FromItems.colsSorted {B : Sp V} {pat : Bool} (h : A.PatWF)
    (hB : FromItems pat B eRow eCol A.eVal A.tagged) : B.ColsSorted := by
  intro c hc
  rw [hB.colRows_items hc, List.pairwise_map]
  exact ((tagged_pairwise h).imp fun h => h.1).filter _

omit [Zero V] in
theorem coords_nodup (hd : A.NoDup) : A.coords.Nodup := by
  unfold coords
  rw [List.nodup_flatMap]
  refine ⟨fun c hc => (hd c (List.mem_range.1 hc)).map (fun a b h => by simpa using h), ?_⟩
  refine List.nodup_range.imp ?_
  intro a b hab
  simp only [Function.onFun, List.disjoint_left, List.mem_map, not_exists, not_and]
  rintro _ ⟨r, _, rfl⟩ r' _ e
  exact hab (by simpa using (congrArg Prod.snd e).symm)

omit [Zero V] in
theorem tagged_fst (A : Sp V) : A.tagged.map Prod.fst = A.coords := by
  simp [tagged]

theorem FromItems.noDup {B : Sp V} {pat : Bool} (hd : A.NoDup)
    (hB : FromItems pat B eRow eCol A.eVal A.tagged) : B.NoDup := by
  intro c hc
  rw [hB.colRows_items hc]
  have h1 : (A.tagged.map Prod.fst).Nodup := by rw [tagged_fst]; exact coords_nodup hd
  have h2 : ((A.tagged.filter fun a => eRow a = c).map Prod.fst).Nodup :=
    h1.sublist (List.filter_sublist.map _)
  have h3 : (A.tagged.filter fun a => eRow a = c).map eCol
      = ((A.tagged.filter fun a => eRow a = c).map Prod.fst).map Prod.snd := by
    rw [List.map_map]; rfl
  rw [h3]
  refine List.Nodup.map_on ?_ h2
  intro a ha b hb hab
  rw [List.mem_map] at ha hb
  obtain ⟨x, hx, rfl⟩ := ha
  obtain ⟨y, hy, rfl⟩ := hb
  have e1 := (List.mem_filter.1 hx).2
  have e2 := (List.mem_filter.1 hy).2
  simp only [decide_eq_true_eq] at e1 e2
  exact Prod.ext (e1.trans e2.symm) hab

theorem bucket_lex {α : Type} {R : α → α → Prop} {m : Nat} {key : α → Nat} {items : List α}
    (hR : items.Pairwise R) :
    (bucket m key items).Pairwise fun a b => key a < key b ∨ key a = key b ∧ R a b := by
  rw [List.pairwise_iff_getElem]
  intro i j hi hj hij
  have ha := List.getElem?_eq_getElem hi
  have hb := List.getElem?_eq_getElem hj
  obtain ⟨h1, h2, h3⟩ := bucket_pos ha
  obtain ⟨h4, h5, h6⟩ := bucket_pos hb
  by_cases hlt : key (bucket m key items)[i] < key (bucket m key items)[j]
  · exact Or.inl hlt
  · right
    have he : key (bucket m key items)[i] = key (bucket m key items)[j] := by
      by_contra hne
      have := below_mono key items
        (a := key (bucket m key items)[j] + 1) (b := key (bucket m key items)[i]) (by omega)
      omega
    exact ⟨he, bucket_pairwise hR hij ha hb he⟩

theorem bucket_map {α β : Type} (m : Nat) (key : β → Nat) (f : α → β) (l : List α) :
    bucket m key (l.map f) = (bucket m (key ∘ f) l).map f := by
  unfold bucket
  rw [List.map_flatMap]
  refine List.flatMap_congr ?_
  intro k _
  rw [List.filter_map]
  rfl

theorem below_map {α β : Type} (key : β → Nat) (f : α → β) (l : List α) (k : Nat) :
    below key (l.map f) k = below (key ∘ f) l k := by
  simp [below, List.countP_map]; rfl

theorem below_perm {α : Type} (key : α → Nat) {l l' : List α} (h : l.Perm l') (k : Nat) :
    below key l k = below key l' k := h.countP_eq _

omit [Zero V] in
theorem below_tagged (h : A.PatWF) {c : Nat} (hc : c ≤ A.cols) :
    below eCol A.tagged c = A.p.getD c 0 := by
  have hle : A.p.getD c 0 ≤ A.tagged.length := by
    rw [tagged_length h]; exact h.mono_le hc (le_refl _)
  have h1 : ∀ e ∈ A.tagged.take (A.p.getD c 0), eCol e < c := by
    intro e he
    obtain ⟨j, hj, rfl⟩ := List.getElem_of_mem he
    rw [List.length_take] at hj
    rw [List.getElem_take]
    obtain ⟨a1, a2, a3, a4, a5, a6⟩ := tagged_inv h
      (List.getElem?_eq_getElem (l := A.tagged) (i := j) (by omega))
    by_contra hlt
    push Not at hlt
    have := h.mono_le hlt (by omega)
    omega
  have h2 : ∀ e ∈ A.tagged.drop (A.p.getD c 0), ¬ eCol e < c := by
    intro e he hlt
    obtain ⟨j, hj, rfl⟩ := List.getElem_of_mem he
    rw [List.length_drop] at hj
    rw [List.getElem_drop] at hlt
    obtain ⟨a1, a2, a3, a4, a5, a6⟩ := tagged_inv h
      (List.getElem?_eq_getElem (l := A.tagged) (i := A.p.getD c 0 + j) (by omega))
    have := h.mono_le (a := eCol A.tagged[A.p.getD c 0 + j] + 1) (b := c) hlt hc
    omega
  unfold below
  conv_lhs => rw [← List.take_append_drop (A.p.getD c 0) A.tagged]
  rw [List.countP_append, List.countP_eq_length.2 (by simpa using h1),
    List.countP_eq_zero.2 (by simpa using h2), List.length_take]
  omega

omit [Zero V] in
/-- Sorting by row and then by column gives back the original list of entries. -/
theorem sort_twice (h : A.PatWF) (hs : A.ColsSorted) :
    bucket A.cols eCol (bucket A.rows eRow A.tagged) = A.tagged := by
  have hp : (bucket A.cols eCol (bucket A.rows eRow A.tagged)).Perm A.tagged := by
    refine (bucket_perm ?_).trans (bucket_perm (tagged_rows h))
    intro a ha
    exact tagged_cols h a (mem_bucket.1 ha).1
  have hT : A.tagged.Pairwise fun a b => a.2 < b.2 := (tagged_pairwise h).imp fun h => h.2
  have hinj : ∀ a ∈ A.tagged, ∀ b ∈ A.tagged, a.2 = b.2 → a = b := by
    intro a ha b hb hab
    obtain ⟨i, hi, rfl⟩ := List.getElem_of_mem ha
    obtain ⟨j, hj, rfl⟩ := List.getElem_of_mem hb
    have e1 := (tagged_inv h (List.getElem?_eq_getElem hi)).1
    have e2 := (tagged_inv h (List.getElem?_eq_getElem hj)).1
    have : i = j := by omega
    subst this; rfl
  have hL := bucket_lex (m := A.cols) (key := eCol) (bucket_lex (m := A.rows) (key := eRow) hT)
  refine hp.eq_of_pairwise (le := fun a b => a.2 < b.2) (fun a b _ _ h1 h2 => by omega) ?_ hT
  refine hL.imp_of_mem ?_
  intro a b ha hb hab
  have ha := hp.mem_iff.1 ha
  have hb := hp.mem_iff.1 hb
  obtain ⟨i, hi, rfl⟩ := List.getElem_of_mem ha
  obtain ⟨j, hj, rfl⟩ := List.getElem_of_mem hb
  obtain ⟨a1, a2, a3, a4, a5, a6⟩ := tagged_inv h (List.getElem?_eq_getElem hi)
  obtain ⟨b1, b2, b3, b4, b5, b6⟩ := tagged_inv h (List.getElem?_eq_getElem hj)
  rcases hab with h1 | ⟨h1, h2⟩
  · have := h.mono_le (a := eCol A.tagged[i] + 1) (b := eCol A.tagged[j]) h1 (by omega)
    omega
  · rcases h2 with h2 | ⟨_, h2⟩
    · by_contra hle
      have hsc := hs (eCol A.tagged[i]) a2
      rw [colRows_eq, List.pairwise_iff_getElem] at hsc
      have hne : i ≠ j := by intro e; subst e; omega
      have hlen : A.p.getD (eCol A.tagged[i] + 1) 0 ≤ A.i.length := h.le_len (by omega)
      have e2 : eCol A.tagged[j] = eCol A.tagged[i] := h1.symm
      rw [e2] at b4 b5
      have hl : (slice A.i (A.p.getD (eCol A.tagged[i]) 0) (A.p.getD (eCol A.tagged[i] + 1) 0)).length
          = A.p.getD (eCol A.tagged[i] + 1) 0 - A.p.getD (eCol A.tagged[i]) 0 := slice_length hlen
      have := hsc (j - A.p.getD (eCol A.tagged[i]) 0) (i - A.p.getD (eCol A.tagged[i]) 0)
        (by rw [hl]; omega) (by rw [hl]; omega) (by omega)
      have g : ∀ k, A.p.getD (eCol A.tagged[i]) 0 ≤ k → k < A.p.getD (eCol A.tagged[i] + 1) 0 →
          ∀ (hk : k - A.p.getD (eCol A.tagged[i]) 0 < (slice A.i (A.p.getD (eCol A.tagged[i]) 0)
            (A.p.getD (eCol A.tagged[i] + 1) 0)).length),
          (slice A.i (A.p.getD (eCol A.tagged[i]) 0)
            (A.p.getD (eCol A.tagged[i] + 1) 0))[k - A.p.getD (eCol A.tagged[i]) 0]
            = A.i.getD k 0 := by
        intro k h3 h4 hk
        apply Option.some.inj
        rw [← List.getElem?_eq_getElem hk, getElem?_slice, if_pos (by omega),
          show A.p.getD (eCol A.tagged[i]) 0 + (k - A.p.getD (eCol A.tagged[i]) 0) = k by omega,
          getElem?_getD 0 (by omega)]
      rw [g j b4 b5, g i a4 a5, ← b3, ← a3] at this
      omega
    · exact h2

end Verif.Sp
